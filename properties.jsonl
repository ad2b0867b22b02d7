{"id": "C01", "title": "Stack is LIFO", "statement": "For every sequence of Push/Pop/Top/Clear/Size/Empty calls, every return value of IntStack equals what a mathematical LIFO sequence returns, and no call panics.", "quantifier": "all operation histories, all values, all initial capacities", "why_tests_cant": "A test runs finitely many histories; the claim ranges over histories of every length, with internal resizes at arbitrary points.", "anchors": ["stl/stack.gp_int.go:IntStack"]}
{"id": "C02", "title": "Deque is a double-ended sequence", "statement": "For every sequence of PushFront/PushBack/PopFront/PopBack/Front/Back/Size/Empty/Clear calls, IntDeque returns exactly what a mathematical double-ended sequence returns.", "quantifier": "all operation histories, all initial capacities", "why_tests_cant": "A test runs finitely many histories; the claim ranges over histories of every length, with internal resizes at arbitrary points.", "anchors": ["stl/deque.gp_int.go:IntDeque", "stl/deque.gp_int.go:PushFront", "stl/deque.gp_int.go:PushBack"]}
{"id": "C03", "title": "Deque below its capacity, or used at one end, is exact", "statement": "(a) As long as a history never holds capacity-many elements, every IntDeque return value is that of a mathematical double-ended sequence. (b) Histories that only push at the back and pop at the back are exact through any number of buffer growths.", "quantifier": "all operation histories meeting (a) or (b), all capacities", "why_tests_cant": "A test runs finitely many histories; the claim ranges over histories of every length, with internal resizes at arbitrary points.", "anchors": ["stl/deque.gp_int.go:IntDeque"]}
{"id": "C04", "title": "Deque.Shrink preserves contents", "statement": "Calling Shrink at any point changes neither the contents nor the later observable behaviour of an IntDeque, and afterwards there is still room for the elements.", "quantifier": "all reachable deque states", "why_tests_cant": "A test runs finitely many histories; the claim ranges over histories of every length, with internal resizes at arbitrary points.", "anchors": ["stl/deque.gp_int.go:Shrink"]}
{"id": "C05", "title": "Queue is FIFO", "statement": "For every sequence of Push/Pop/Front/Back/Size/Empty/Clear calls, IntQueue returns exactly what a mathematical FIFO sequence returns: no element is lost, duplicated or reordered.", "quantifier": "all operation histories, all initial capacities", "why_tests_cant": "A test runs finitely many histories; the claim ranges over histories of every length, with internal resizes at arbitrary points.", "anchors": ["stl/queue.gp_int.go:IntQueue", "stl/queue.gp_int.go:Push", "stl/queue.gp_int.go:Pop"]}
{"id": "C06", "title": "Queue.Shrink preserves contents", "statement": "Calling Shrink at any point does not change the contents of an IntQueue and leaves it usable.", "quantifier": "all reachable queue states", "why_tests_cant": "A test runs finitely many histories; the claim ranges over histories of every length, with internal resizes at arbitrary points.", "anchors": ["stl/queue.gp_int.go:Shrink"]}
{"id": "C07", "title": "Heap operations keep the heap order and the multiset", "statement": "PushHeap, PopHeap and MakeHeap, for either comparison direction, return a slice that satisfies the heap order (every child compares against its parent) and is a permutation of the expected elements; PopHeap moves the former root to the last position.", "quantifier": "all slices of all lengths and contents, both directions", "why_tests_cant": "The input space is unbounded (or 2^32/2^64 wide), so no finite sample of inputs settles it.", "anchors": ["stl/heap.gp_int.go:PushHeap", "stl/heap.gp_int.go:PopHeap", "stl/heap.gp_int.go:MakeHeap", "stl/heap.gp_int.go:adjustDown", "stl/heap.gp_int.go:adjustUp"]}
{"id": "C08", "title": "Heap Top/Pop are extremal", "statement": "For every history of Push and Pop on an unbounded IntHeap, Top and Pop return a maximum (max-top) or minimum (min-top) of the multiset currently stored, so draining the heap yields the stored elements in order.", "quantifier": "all operation histories, both directions", "why_tests_cant": "A test runs finitely many histories; the claim ranges over histories of every length, with internal resizes at arbitrary points.", "anchors": ["stl/heap.gp_int.go:IntHeap", "stl/heap.gp_int.go:Push", "stl/heap.gp_int.go:Pop", "stl/heap.gp_int.go:Top"]}
{"id": "C09", "title": "SortHeap sorts", "statement": "SortHeap applied to any heap returns a permutation of it that is ascending for a max-top heap and descending for a min-top heap; MakeHeap followed by SortHeap sorts any slice.", "quantifier": "all slices, both directions", "why_tests_cant": "The input space is unbounded (or 2^32/2^64 wide), so no finite sample of inputs settles it.", "anchors": ["stl/heap.gp_int.go:SortHeap"]}
{"id": "C10", "title": "CheckHeap decides the heap order", "statement": "CheckHeap returns true exactly when every non-root element is in heap order with its parent.", "quantifier": "all slices, both directions", "why_tests_cant": "The input space is unbounded (or 2^32/2^64 wide), so no finite sample of inputs settles it.", "anchors": ["stl/heap.gp_int.go:CheckHeap"]}
{"id": "C11", "title": "Bounded heap keeps the best N", "statement": "After pushing any sequence into a heap created with limitN = N > 0, the heap holds at most N elements, and it holds exactly the N smallest (max-top) or N largest (min-top) of everything pushed, as a multiset.", "quantifier": "all push sequences, all N, both directions", "why_tests_cant": "A test runs finitely many histories; the claim ranges over histories of every length, with internal resizes at arbitrary points.", "anchors": ["stl/heap.gp_int.go:Push", "stl/heap.gp_int.go:Init"]}
{"id": "C12", "title": "Heap Reverse reverses", "statement": "Reverse returns the reversed slice for every slice.", "quantifier": "all slices", "why_tests_cant": "The input space is unbounded (or 2^32/2^64 wide), so no finite sample of inputs settles it.", "anchors": ["stl/heap.gp_int.go:Reverse"]}
{"id": "C13", "title": "Comparators are strict weak orders", "statement": "The Lesser and Greater comparators are strict weak orders (irreflexive, transitive, with transitive incomparability), each the converse of the other, and selecting a comparator by name or by flag yields the documented one; FileHash ordering by (Size, Hash) is also a strict weak order.", "quantifier": "all values / triples of values, all selector inputs", "why_tests_cant": "The input space is unbounded (or 2^32/2^64 wide), so no finite sample of inputs settles it.", "anchors": ["stl/functorcmp.gp_int.go:CmpInt", "fs/file_path.go:FileHash.Less", "stl/functorcmp.gp_#inttreenodeb60b.go"]}
{"id": "C14", "title": "SortSlice is an indexable sequence", "statement": "For every history of Push/Insert/Remove/Pop/Get/MustGet/Len, IntSortSlice behaves as a mathematical sequence: Insert(v, i) adds v at position i, Remove(i) deletes position i, and out-of-range requests report failure instead of panicking.", "quantifier": "all operation histories, all indices including out-of-range", "why_tests_cant": "A test runs finitely many histories; the claim ranges over histories of every length, with internal resizes at arbitrary points.", "anchors": ["stl/sort_slice.gp_int.go:IntSortSlice", "stl/sort_slice.gp_int.go:Insert", "stl/sort_slice.gp_int.go:Remove", "stl/sort_slice.gp_int.go:Pop"]}
{"id": "C15", "title": "SortSlice.Sort orders ascending", "statement": "Whatever Less/Swap sequence the library sort performs, once it stops with no adjacent inversion the slice is an ascending permutation of the input, and any two such runs yield the same slice.", "quantifier": "all slices, all swap sequences", "why_tests_cant": "The input space is unbounded (or 2^32/2^64 wide), so no finite sample of inputs settles it.", "anchors": ["stl/sort_slice.gp_int.go:Sort", "stl/sort_slice.gp_int.go:Less", "stl/sort_slice.gp_int.go:Swap"]}
{"id": "C16", "title": "Tree visitor is a preorder cursor", "statement": "On every tree, a visitor behaves as a cursor on the preorder listing All(): repeated Next enumerates All() exactly, repeated Prev from a fresh visitor enumerates its reverse, any mix of Next and Prev moves the cursor by one, and stepping past either end reports false forever.", "quantifier": "all finite trees (any depth and fan-out), all Next/Prev sequences", "why_tests_cant": "Trees have unbounded depth and fan-out and the call sequence is arbitrary.", "anchors": ["stl/tree.gp_int.go:Visitor", "stl/tree.gp_int.go:Next", "stl/tree.gp_int.go:Prev", "stl/tree.gp_int.go:All"]}
{"id": "C17", "title": "Tree child editing", "statement": "Adding a child at an index makes it the child at that index without losing any other child; RemoveChild removes exactly the indexed subtree; other subtrees are untouched.", "quantifier": "all trees, all indices", "why_tests_cant": "The input space is unbounded (or 2^32/2^64 wide), so no finite sample of inputs settles it.", "anchors": ["stl/tree.gp_int.go:AddChild", "stl/tree.gp_int.go:AddChildNode", "stl/tree.gp_int.go:RemoveChild", "stl/sort_slice.gp_int.go:Insert"]}
{"id": "C18", "title": "Doubly linked list core operations", "statement": "For every history of PushFront/PushBack/PopFront/PopBack/InsertBefore/Remove/RotateForward/RotateBackward/InsertBackList/Clear, the forward and backward link structure of IntList stays a consistent ring and its contents equal those of a mathematical sequence; nodes of other lists are untouched.", "quantifier": "all pointer heaps, all operation histories", "why_tests_cant": "A test runs finitely many histories; the claim ranges over histories of every length, with internal resizes at arbitrary points.", "anchors": ["stl/list.gp_int.go:IntList", "stl/list.gp_int.go:PushBack", "stl/list.gp_int.go:Remove", "stl/list.gp_int.go:InsertBefore", "stl/list.gp_int.go:InsertBackList"]}
{"id": "C19", "title": "List visitor enumerates the list", "statement": "A visitor over an IntList enumerates every element exactly once in list order with Next, in reverse order with Prev, and then reports false.", "quantifier": "all lists of all lengths", "why_tests_cant": "The input space is unbounded (or 2^32/2^64 wide), so no finite sample of inputs settles it.", "anchors": ["stl/list.gp_int.go:IntListNodeVisitor", "stl/list.gp_int.go:Next", "stl/list.gp_int.go:Prev"]}
{"id": "C20", "title": "List.Sort is a stable sort", "statement": "Sort terminates on every list, relinks the existing nodes without losing or duplicating any, leaves a consistent ring, orders values by the comparator and keeps equal values in their original order.", "quantifier": "all lists of all lengths and contents", "why_tests_cant": "The input space is unbounded (or 2^32/2^64 wide), so no finite sample of inputs settles it.", "anchors": ["stl/list.gp_int.go:Sort", "stl/list.gp_int.go:mergeSort", "stl/list.gp_int.go:merge"]}
{"id": "C21", "title": "List.InsertAfter", "statement": "InsertAfter/PushAfter places a new node right after the mark in both traversal directions.", "quantifier": "all lists, all marks", "why_tests_cant": "The input space is unbounded (or 2^32/2^64 wide), so no finite sample of inputs settles it.", "anchors": ["stl/list.gp_int.go:InsertAfter", "stl/list.gp_int.go:PushAfter"]}
{"id": "C22", "title": "List Move operations", "statement": "MoveFront, MoveBack, MoveBefore and MoveAfter move an existing node to the named place and keep all other nodes in order, for every node and mark of the list.", "quantifier": "all lists, all node/mark pairs", "why_tests_cant": "The input space is unbounded (or 2^32/2^64 wide), so no finite sample of inputs settles it.", "anchors": ["stl/list.gp_int.go:MoveFront", "stl/list.gp_int.go:MoveBack", "stl/list.gp_int.go:MoveBefore", "stl/list.gp_int.go:MoveAfter"]}
{"id": "C23", "title": "List.Reverse reverses", "statement": "Reverse leaves an IntList holding the same nodes in reverse order.", "quantifier": "all lists", "why_tests_cant": "The input space is unbounded (or 2^32/2^64 wide), so no finite sample of inputs settles it.", "anchors": ["stl/list.gp_int.go:Reverse"]}
{"id": "C24", "title": "List.InsertFrontList prepends", "statement": "InsertFrontList(other) makes the list equal other followed by this and empties other.", "quantifier": "all pairs of disjoint lists", "why_tests_cant": "The input space is unbounded (or 2^32/2^64 wide), so no finite sample of inputs settles it.", "anchors": ["stl/list.gp_int.go:InsertFrontList"]}
{"id": "C25", "title": "List membership test", "statement": "IsValidNode(node) is true exactly when node belongs to the list.", "quantifier": "all lists and nodes", "why_tests_cant": "The input space is unbounded (or 2^32/2^64 wide), so no finite sample of inputs settles it.", "anchors": ["stl/list.gp_int.go:IsValidNode", "stl/list.gp_int.go:Reachable"]}
{"id": "C26", "title": "Singly linked list core operations", "statement": "For every history of PushFront/PopFront/InsertAfter/Remove/MoveFront/MoveAfter/Reverse/Clear, the node chain of IntSList is finite and acyclic and its contents equal those of a mathematical sequence.", "quantifier": "all pointer heaps, all operation histories", "why_tests_cant": "A test runs finitely many histories; the claim ranges over histories of every length, with internal resizes at arbitrary points.", "anchors": ["stl/slist.gp_int.go:IntSList", "stl/slist.gp_int.go:Remove", "stl/slist.gp_int.go:Reverse", "stl/slist.gp_int.go:MoveAfter"]}
{"id": "C27", "title": "Singly linked list Len/Empty/traversal", "statement": "Len returns the number of elements, Empty is true exactly for a list without elements, and the visitor enumerates the elements.", "quantifier": "all lists", "why_tests_cant": "The input space is unbounded (or 2^32/2^64 wide), so no finite sample of inputs settles it.", "anchors": ["stl/slist.gp_int.go:Len", "stl/slist.gp_int.go:Empty", "stl/slist.gp_int.go:Next"]}
{"id": "C28", "title": "SList.HasCycle decides cyclicity", "statement": "HasCycle terminates without panic on every node chain and returns true exactly when the chain is cyclic.", "quantifier": "all chains: acyclic of every length, and every stem/cycle length", "why_tests_cant": "Chains have unbounded length; divergence on a cycle cannot be observed by a test that must finish.", "anchors": ["stl/slist.gp_int.go:HasCycle"]}
{"id": "C29", "title": "SList.Sort sorts", "statement": "Sort leaves an IntSList with the same elements in comparator order.", "quantifier": "all lists", "why_tests_cant": "The input space is unbounded (or 2^32/2^64 wide), so no finite sample of inputs settles it.", "anchors": ["stl/slist.gp_int.go:Sort", "stl/slist.gp_int.go:mergeSort"]}
{"id": "C30", "title": "Lock-free list is a linearizable LIFO", "statement": "Under every interleaving of any number of goroutines calling PushFront and PopFront, the lock-free list is linearizable to a sequential LIFO sequence: each call takes effect atomically at one point between its start and return, no element is lost, duplicated or invented.", "quantifier": "all goroutine counts, all interleavings of atomic steps, all values", "why_tests_cant": "The claim ranges over every interleaving of an arbitrary number of goroutines; a test sees only the schedules the runtime happens to pick.", "anchors": ["stl/gp/lfqueue.gp.go:PushFront", "stl/gp/lfqueue.gp.go:PopFront"]}
{"id": "C31", "title": "Lock-free list Size is exact when quiescent", "statement": "When no call is in progress Size equals the number of stored elements, and Empty agrees with it.", "quantifier": "all interleavings ending in a quiescent state", "why_tests_cant": "The claim ranges over every interleaving of an arbitrary number of goroutines; a test sees only the schedules the runtime happens to pick.", "anchors": ["stl/gp/lfqueue.gp.go:Size", "stl/gp/lfqueue.gp.go:PopFront", "stl/gp/lfqueue.gp.go:Clear"]}
{"id": "C32", "title": "Lock-free deque: index word and single-threaded FIFO", "statement": "Packing the head and tail indices into one 64-bit word and unpacking returns both for every pair of 32-bit values; and for every single-threaded history of PushBack/PopFront the bounded deque is a FIFO of capacity cap-1 that reports full and empty exactly.", "quantifier": "all 2^64 index pairs; all single-threaded histories", "why_tests_cant": "The input space is unbounded (or 2^32/2^64 wide), so no finite sample of inputs settles it.", "anchors": ["stl/gp/lfdeque.gp.go:headTail", "stl/gp/lfdeque.gp.go:makeHeadTail", "stl/gp/lfdeque.gp.go:PushBack", "stl/gp/lfdeque.gp.go:PopFront"]}
{"id": "C33", "title": "Lock-free deque works at both ends and concurrently", "statement": "PushFront and PopBack work on every state, and under concurrent PushBack calls each accepted value is later returned exactly once.", "quantifier": "all histories, all interleavings", "why_tests_cant": "The claim ranges over every interleaving of an arbitrary number of goroutines; a test sees only the schedules the runtime happens to pick.", "anchors": ["stl/gp/lfdeque.gp.go:PushFront", "stl/gp/lfdeque.gp.go:PopBack", "stl/gp/lfdeque.gp.go:prev", "stl/gp/lfdeque.gp.go:PushBack"]}
{"id": "C34", "title": "Ring buffer blocking transfer is FIFO", "statement": "Under every interleaving of any number of MustPush and MustPop callers, the value returned by the pop holding ticket k is the value given by the push holding ticket k, at most capacity values are in flight, and no unread slot is overwritten.", "quantifier": "all goroutine counts, all interleavings, all capacities", "why_tests_cant": "The claim ranges over every interleaving of an arbitrary number of goroutines; a test sees only the schedules the runtime happens to pick.", "anchors": ["stl/gp/ringbuffer.gp.go:MustPush", "stl/gp/ringbuffer.gp.go:MustPop"]}
{"id": "C35", "title": "Ring buffer sizing and non-blocking operations", "statement": "Init(n) provides room for at least n elements; Push reports true when it stored the value and false when full; Pop reports false when empty.", "quantifier": "all requested sizes, all states", "why_tests_cant": "The input space is unbounded (or 2^32/2^64 wide), so no finite sample of inputs settles it.", "anchors": ["stl/gp/ringbuffer.gp.go:Init", "stl/gp/ringbuffer.gp.go:Push", "stl/gp/ringbuffer.gp.go:Pop"]}
{"id": "C36", "title": "SpinLock mutual exclusion", "statement": "Under every interleaving, at most one goroutine is between a returned Lock and its Unlock, provided each goroutine unlocks only what it locked; Unlock of an unlocked SpinLock panics.", "quantifier": "all goroutine counts, all interleavings", "why_tests_cant": "The claim ranges over every interleaving of an arbitrary number of goroutines; a test sees only the schedules the runtime happens to pick.", "anchors": ["sync/spinlock.go:SpinLock"]}
{"id": "C37", "title": "RWSpinLock exclusion", "statement": "While a goroutine holds the write lock no other goroutine holds a read or write lock.", "quantifier": "all goroutine counts, all interleavings", "why_tests_cant": "The claim ranges over every interleaving of an arbitrary number of goroutines; a test sees only the schedules the runtime happens to pick.", "anchors": ["sync/spinrwlock.go:RWSpinLock"]}
{"id": "C38", "title": "RWSpinLock is reusable after readers leave", "statement": "After every reader has called RUnlock, a writer (or a new reader) can acquire the lock.", "quantifier": "all histories of RLock/RUnlock/Lock/Unlock", "why_tests_cant": "The claim ranges over every interleaving of an arbitrary number of goroutines; a test sees only the schedules the runtime happens to pick.", "anchors": ["sync/spinrwlock.go:RUnlock", "sync/spinrwlock.go:RLock", "sync/spinrwlock.go:Lock"]}
{"id": "C39", "title": "Rand is linearizable", "statement": "Under every interleaving of goroutines sharing one generator, the values returned by completed Rand calls are exactly the values of the sequential generator, each handed out once, in the order of the successful updates.", "quantifier": "all goroutine counts, all interleavings, all seeds", "why_tests_cant": "The claim ranges over every interleaving of an arbitrary number of goroutines; a test sees only the schedules the runtime happens to pick.", "anchors": ["math/rand/rand.gp_32.go:Rand", "math/rand/rand.gp_64.go:Rand", "math/rand/rand.gp_32.go:Srand"]}
{"id": "C40", "title": "RandRange and RandMax stay in range", "statement": "RandRange(a,b) returns a value between min(a,b) and max(a,b) inclusive, and RandMax(m) returns a value below m, for every seed, without panicking.", "quantifier": "all 2^32 / 2^64 seeds and bounds", "why_tests_cant": "The input space is unbounded (or 2^32/2^64 wide), so no finite sample of inputs settles it.", "anchors": ["math/rand/rand.gp_32.go:RandRange", "math/rand/rand.gp_64.go:RandRange", "math/rand/rand.gp_32.go:RandMax"]}
{"id": "C41", "title": "Generator period", "statement": "From every seed the 64-bit generator visits all 2^64 states before repeating, and the 32-bit generator's state sequence first returns to the seed after exactly 2^31 steps; different seeds never produce the same next value.", "quantifier": "all seeds", "why_tests_cant": "The period is 2^31 / 2^64 long for each of 2^32 / 2^64 seeds.", "anchors": ["math/rand/rand.gp_64.go:Rand", "math/rand/rand.gp_32.go:Rand"]}
{"id": "C42", "title": "Ranged counters stay in range", "statement": "A RangeUint32/RangeUint64 created with [min,max] always holds a value within [min,max]; operations that would leave the range or overflow report an error and change nothing.", "quantifier": "all operation histories, all bounds", "why_tests_cant": "A test runs finitely many histories; the claim ranges over histories of every length, with internal resizes at arbitrary points.", "anchors": ["math/range_uint32.go", "math/range_uint64.go"]}
{"id": "C43", "title": "Sequence ids", "statement": "Next on a Seq64 returns ids min, min+1, ... in order, never repeats an id, and never exceeds the declared maximum.", "quantifier": "all histories, all bounds", "why_tests_cant": "A test runs finitely many histories; the claim ranges over histories of every length, with internal resizes at arbitrary points.", "anchors": ["math/seq/sequence64.go:Seq64", "math/seq/sequence64.go:Next", "math/range_uint64.go:Inc"]}
{"id": "C44", "title": "SqrtUint32 is the nearest integer square root", "statement": "For every uint32 v, SqrtUint32(v) is the integer nearest to the real square root of v, so it differs from the true root by less than 1/2, and it is monotone.", "quantifier": "all 2^32 inputs", "why_tests_cant": "The input space is unbounded (or 2^32/2^64 wide), so no finite sample of inputs settles it.", "anchors": ["math/prime/prime.go:SqrtUint32"]}
{"id": "C45", "title": "IsPrime decides primality", "statement": "IsPrime(n) is true exactly when n is prime, and the built-in prime table lists every prime up to its last entry exactly once in order.", "quantifier": "all uint32 inputs; the whole table", "why_tests_cant": "The input space is unbounded (or 2^32/2^64 wide), so no finite sample of inputs settles it.", "anchors": ["math/prime/prime.go:IsPrime", "math/prime/prime_data.go:g_primes"]}
{"id": "C46", "title": "CommaString is a faithful grouping", "statement": "Deleting the commas from the comma form of n gives the decimal digits of n; commas occur exactly before every group of three digits; the value can be recovered.", "quantifier": "all 2^64 inputs", "why_tests_cant": "The input space is unbounded (or 2^32/2^64 wide), so no finite sample of inputs settles it.", "anchors": ["math/uint64.go:CommaString"]}
{"id": "C47", "title": "Bit, byte and word extraction", "statement": "GetBit/GetByte/GetWord return the indexed bit/byte/word of the value for every valid index and an error otherwise, and the value is the recombination of its parts.", "quantifier": "all values, all indices", "why_tests_cant": "The input space is unbounded (or 2^32/2^64 wide), so no finite sample of inputs settles it.", "anchors": ["math/bits_bytes.go:GetBit", "math/bits_bytes.go:GetByte", "math/bits_bytes.go:GetWord"]}
{"id": "C48", "title": "PKCS padding round-trips", "statement": "For every data and block size, padding yields a positive multiple of the block size that extends the data, and unpadding returns the data.", "quantifier": "all byte strings, all block sizes", "why_tests_cant": "The input space is unbounded (or 2^32/2^64 wide), so no finite sample of inputs settles it.", "anchors": ["crypto/padding.go:PKCS5Padding", "crypto/padding.go:PKCS5UnPadding", "crypto/aes/aes.go:PKCS7Padding", "crypto/aes/aes.go:PKCS7UnPadding"]}
{"id": "C49", "title": "3DES encrypt/decrypt round-trips", "statement": "For every key and data, decrypting the encrypted data with the same key returns the data; malformed ciphertext lengths are rejected with an error; only the first 24 key bytes matter.", "quantifier": "all keys of any length, all data", "why_tests_cant": "The input space is unbounded (or 2^32/2^64 wide), so no finite sample of inputs settles it.", "anchors": ["crypto/ecb/ecb.go", "crypto/padding.go:ZeroPadding", "crypto/padding.go:ZeroUnPadding"]}
{"id": "C50", "title": "AES-CBC message streams round-trip", "statement": "For every key and every sequence of messages, feeding the produced ciphertexts in order to a decrypter with the same key returns the messages in order.", "quantifier": "all keys, all message sequences of any length", "why_tests_cant": "A test runs finitely many histories; the claim ranges over histories of every length, with internal resizes at arbitrary points.", "anchors": ["crypto/aes/aes.go:Encrypt", "crypto/aes/aes.go:Decrypt"]}
{"id": "C51", "title": "Text encoding round-trips", "statement": "Decode(Encode(s)) returns s, and the hex helpers invert each other, for every byte string.", "quantifier": "all byte strings", "why_tests_cant": "The input space is unbounded (or 2^32/2^64 wide), so no finite sample of inputs settles it.", "anchors": ["crypto/rsa/code.go"]}
{"id": "C52", "title": "Fingerprint depends only on the content", "statement": "The fingerprint of a stream depends only on the concatenation of the written bytes, not on how they are split across Write calls, and always has 24 bytes with the low 48 bits of the length in front.", "quantifier": "all byte streams and all ways to split them", "why_tests_cant": "The input space is unbounded (or 2^32/2^64 wide), so no finite sample of inputs settles it.", "anchors": ["hash/finger_print.go:Write", "hash/finger_print.go:Sum"]}
{"id": "C53", "title": "Fingerprint honours the hash contract", "statement": "After Reset a fingerprint behaves as a fresh one, Size returns the number of bytes Sum produces, and Sum(b) appends to b.", "quantifier": "all write histories", "why_tests_cant": "A test runs finitely many histories; the claim ranges over histories of every length, with internal resizes at arbitrary points.", "anchors": ["hash/finger_print.go:Reset", "hash/finger_print.go:Size", "hash/finger_print.go:Sum"]}
{"id": "C54", "title": "NoneHash identifiers are distinct", "statement": "Any two NoneHash objects created in one process have different sums, and writing never changes a sum.", "quantifier": "all creation histories below 2^32 objects, all writes", "why_tests_cant": "A test runs finitely many histories; the claim ranges over histories of every length, with internal resizes at arbitrary points.", "anchors": ["hash/none_hash.go"]}
{"id": "C55", "title": "INI lookup semantics", "statement": "After loading any text, GetString(section,key,default) returns the trimmed value of the last assignment to that key inside that section, and default when there is none; comments, blank lines and keys outside sections have no effect.", "quantifier": "all texts", "why_tests_cant": "The input space is unbounded (or 2^32/2^64 wide), so no finite sample of inputs settles it.", "anchors": ["encoding/ini/ini.go:Load", "encoding/ini/ini.go:GetString"]}
{"id": "C56", "title": "INI round trip", "statement": "Writing any set of sections with well-formed names, keys and values as text and loading it gives back exactly those sections, keys and values.", "quantifier": "all well-formed configurations", "why_tests_cant": "The input space is unbounded (or 2^32/2^64 wide), so no finite sample of inputs settles it.", "anchors": ["encoding/ini/ini.go:Load", "encoding/ini/ini.go:Sections", "encoding/ini/ini.go:Keys"]}
{"id": "C57", "title": "FileSize unit choice", "statement": "For every 64-bit size the printed unit exists, and the size is at least one of that unit and less than 1024 of it (or below 1024 bytes).", "quantifier": "all 2^64 sizes", "why_tests_cant": "The input space is unbounded (or 2^32/2^64 wide), so no finite sample of inputs settles it.", "anchors": ["fs/file_size.go:String"]}
{"id": "C58", "title": "Directory listing is complete", "statement": "GetDeepFiles lists exactly the regular files below a directory and GetLeafDirs exactly the directories without sub-directories, each once, for every directory tree and listing order.", "quantifier": "all finite directory trees and listing orders", "why_tests_cant": "The input space is unbounded (or 2^32/2^64 wide), so no finite sample of inputs settles it.", "anchors": ["fs/fs.go:CollectSubs", "fs/fs.go:GetDeepFiles", "fs/fs.go:GetLeafDirs"]}
{"id": "C59", "title": "Directory listing reports errors", "statement": "If any directory that has to be listed cannot be opened, CollectSubs returns a non-nil error.", "quantifier": "all directory trees and failure points", "why_tests_cant": "The input space is unbounded (or 2^32/2^64 wide), so no finite sample of inputs settles it.", "anchors": ["fs/fs.go:CollectSubs"]}
{"id": "C60", "title": "Directory fingerprint ignores listing order and names", "statement": "The fingerprint and total size of a directory tree do not depend on the order in which the OS lists entries, nor on file names, only on the sizes and hashes of the contents and the nesting.", "quantifier": "all directory trees and all listing orders", "why_tests_cant": "Listing orders grow factorially and trees are unbounded.", "anchors": ["fs/file_path.go:Fingerprint", "fs/file_path.go:Hash", "fs/file_path.go:FileHash"]}
{"id": "C61", "title": "SplitAll inverts joining", "statement": "SplitAll splits any clean path into its components without panicking, and joining the components gives the path back.", "quantifier": "all clean paths", "why_tests_cant": "The input space is unbounded (or 2^32/2^64 wide), so no finite sample of inputs settles it.", "anchors": ["fs/file_path.go:SplitAll", "fs/file_path.go:Joins"]}
{"id": "C62", "title": "Error registry", "statement": "For every sequence of registrations, ids are distinct, each id returns the text it was registered with, at most the documented range is handed out, and unregistered ids report an error.", "quantifier": "all registration histories and id queries", "why_tests_cant": "A test runs finitely many histories; the claim ranges over histories of every length, with internal resizes at arbitrary points.", "anchors": ["errors/errors.go:Reg", "errors/errors.go:Get"]}
{"id": "C63", "title": "Registered values are isolated", "statement": "For every history of registrations and Set calls, Get(id) returns the value last Set under that id (or its registered value), distinct registrations never share an id, and an id decomposes into the registrar and index it was made from.", "quantifier": "all histories, all ids", "why_tests_cant": "A test runs finitely many histories; the claim ranges over histories of every length, with internal resizes at arbitrary points.", "anchors": ["regable/reg.go", "regable/regable.go:MakeRegedId", "regable/regable.go:ids"]}
{"id": "C64", "title": "Unregistered ids are rejected", "statement": "Valid() is false and Get/Set return an error, without panicking, for every id that was never registered, and the advertised limits on registrars and ids are enforced.", "quantifier": "all registry states and all ids", "why_tests_cant": "A test runs finitely many histories; the claim ranges over histories of every length, with internal resizes at arbitrary points.", "anchors": ["regable/reg.go:get", "regable/reg.go:Valid"]}
{"id": "C65", "title": "Two-way mapping is a bijection", "statement": "For every history of Insert/RemoveByKey/RemoveByValue/Clear, lookups by key and by value are inverse to each other, Insert succeeds exactly when both key and value are new, and failed operations change nothing.", "quantifier": "all operation histories", "why_tests_cant": "A test runs finitely many histories; the claim ranges over histories of every length, with internal resizes at arbitrary points.", "anchors": ["regable/gp/mapping.gp.go"]}
{"id": "C66", "title": "Copy to many writers", "statement": "Copying from a reader to any number of writers delivers to every writer exactly the bytes read, in order, and returns their number; on a writer failure the error is returned.", "quantifier": "all read chunkings, all numbers of writers, all failure points", "why_tests_cant": "The input space is unbounded (or 2^32/2^64 wide), so no finite sample of inputs settles it.", "anchors": ["io/io.go:CopysBuffer"]}
{"id": "C67", "title": "Duration text is faithful", "statement": "The text of a duration of a day or more is its whole number of days followed by the text of the remainder below one day, and different durations have different texts.", "quantifier": "all 64-bit durations", "why_tests_cant": "The input space is unbounded (or 2^32/2^64 wide), so no finite sample of inputs settles it.", "anchors": ["time/duration.go:String"]}
{"id": "C68", "title": "Random strings", "statement": "strings.Rand(rule,n) returns exactly n characters, all upper-case letters, for every n >= 0 and generator state; characters follow the requested rule.", "quantifier": "all lengths, all generator states", "why_tests_cant": "The input space is unbounded (or 2^32/2^64 wide), so no finite sample of inputs settles it.", "anchors": ["strings/rand.go:Rand"]}
{"id": "C69", "title": "Ordered tree insert and find", "statement": "Inserting any sequence of keys (duplicates allowed) into the tree template keeps the in-order traversal sorted and complete, Find returns the first node with the key if there is one and nil otherwise, and next/prev walk the in-order sequence.", "quantifier": "all insertion histories, all keys", "why_tests_cant": "A test runs finitely many histories; the claim ranges over histories of every length, with internal resizes at arbitrary points.", "anchors": ["stl/gp/rbtree.gp.go:insertEqual", "stl/gp/rbtree.gp.go:Find", "stl/gp/rbtree.gp.go:next", "stl/gp/rbtree.gp.go:insertUnique"]}
{"id": "C70", "title": "Factory creates registered products", "statement": "After registering a creator under a name, Create(name) calls it.", "quantifier": "all registration histories", "why_tests_cant": "A test runs finitely many histories; the claim ranges over histories of every length, with internal resizes at arbitrary points.", "anchors": ["factory"]}
{"id": "C71", "title": "Heap template in STL mode", "statement": "Instantiated without the improved adjust-down, the heap template still provides MakeHeap and PopHeap that yield heaps with the same elements, and SortHeap that sorts.", "quantifier": "all slices, both directions", "why_tests_cant": "The input space is unbounded (or 2^32/2^64 wide), so no finite sample of inputs settles it.", "anchors": ["stl/gp/heap.gp.go:adjustDown", "stl/gp/heap.gp.go:MakeHeap", "stl/gp/heap.gp.go:SortHeap"]}
{"id": "C72", "title": "SList.PushFrontList moves the other list", "statement": "PushFrontList(other) puts the elements of other, in order, in front of the list and leaves other empty, so that no node belongs to two lists.", "quantifier": "all pairs of disjoint lists", "why_tests_cant": "The input space is unbounded (or 2^32/2^64 wide), so no finite sample of inputs settles it.", "anchors": ["stl/slist.gp_int.go:PushFrontList"]}
{"id": "C73", "title": "SList.Reachable/IsValidNode decide membership", "statement": "IsValidNode(node) is true exactly for the nodes of the list, and Reachable(a,b) exactly when b is reached from a by following Next.", "quantifier": "all lists, all nodes", "why_tests_cant": "The input space is unbounded (or 2^32/2^64 wide), so no finite sample of inputs settles it.", "anchors": ["stl/slist.gp_int.go:Reachable", "stl/slist.gp_int.go:IsValidNode"]}
{"id": "C74", "title": "Encryption leaves the caller's memory alone", "statement": "Padding or encrypting a slice does not change any byte of the array it is part of.", "quantifier": "all slices and arrays, all block sizes", "why_tests_cant": "The input space is unbounded (or 2^32/2^64 wide), so no finite sample of inputs settles it.", "anchors": ["crypto/padding.go:ZeroPadding", "crypto/padding.go:PKCS5Padding", "crypto/ecb/ecb.go:TripleDesEncrypt"]}
{"id": "C75", "title": "FileSize text is accurate", "statement": "The number printed for a file size is the size divided by its unit to within half a thousandth (plus the float error above 2^53), and is below 1024.", "quantifier": "all 64-bit sizes", "why_tests_cant": "The input space is unbounded (or 2^32/2^64 wide), so no finite sample of inputs settles it.", "anchors": ["fs/file_size.go:String"]}
{"id": "C76", "title": "Objects and ids of registered values agree", "statement": "An object obtained from a registered identifier reads and writes the value of that identifier at any later time, and its Id() is that identifier.", "quantifier": "all histories of registrations and Sets, all registered identifiers", "why_tests_cant": "A test runs finitely many histories; the claim ranges over histories of every length, with internal resizes at arbitrary points.", "anchors": ["regable/reg.go:Oject", "regable/reg.go:Id"]}
{"id": "C77", "title": "Fingerprints tell files from directories", "statement": "Two trees with the same fingerprint are the same up to names and listing order, unless the underlying hash functions collide; in particular a file and a directory never share one.", "quantifier": "all file trees, all hash functions", "why_tests_cant": "The input space is unbounded (or 2^32/2^64 wide), so no finite sample of inputs settles it.", "anchors": ["fs/file_path.go:Fingerprint", "hash/finger_print.go:Resetsize"]}
{"id": "C78", "title": "Fingerprint and Hash report what cannot be read", "statement": "Fingerprint and Hash of a tree return an error if any part of it cannot be opened, listed or read to its end.", "quantifier": "all file trees, all places where the operating system fails", "why_tests_cant": "The input space is unbounded (or 2^32/2^64 wide), so no finite sample of inputs settles it.", "anchors": ["fs/file_path.go:Fingerprint", "fs/file_path.go:Hash"]}
{"id": "C79", "title": "Statistic counts the tree", "statement": "Statistic counts every directory and file below a path once, adds up the sizes of the files and reports every directory that could not be listed; its size agrees with the size of the fingerprint.", "quantifier": "all file trees", "why_tests_cant": "The input space is unbounded (or 2^32/2^64 wide), so no finite sample of inputs settles it.", "anchors": ["fs/file_path.go:Statistic"]}
{"id": "C80", "title": "The tree is balanced", "statement": "The tree template is a red-black tree: no red node has a red child, and its height is at most twice the logarithm of the number of keys, whatever the order of insertion.", "quantifier": "all sequences of inserted keys", "why_tests_cant": "A test runs finitely many histories; the claim ranges over histories of every length, with internal resizes at arbitrary points.", "anchors": ["stl/gp/rbtree.gp.go:rebalence", "stl/gp/rbtree.gp.go:insertEqual"]}
{"id": "C81", "title": "Rotations keep the order", "statement": "Rotating a subtree to the left or right keeps its nodes in the same in-order sequence, at the same place, with correct parent links, and changes nothing outside it.", "quantifier": "all trees, all subtrees, all three kinds of link to them", "why_tests_cant": "The input space is unbounded (or 2^32/2^64 wide), so no finite sample of inputs settles it.", "anchors": ["stl/gp/rbtree.gp.go:rotateLeft", "stl/gp/rbtree.gp.go:rotateRight"]}
{"id": "C82", "title": "File paths are canonical", "statement": "A file path object leads to the same file as the text it was made from, whatever the working directory; making it again changes nothing; two texts give the same object exactly when they always lead to the same place.", "quantifier": "all texts, all working directories", "why_tests_cant": "The input space is unbounded (or 2^32/2^64 wide), so no finite sample of inputs settles it.", "anchors": ["fs/file_path.go:FilePath", "fs/file_path.go:Set", "fs/file_line.go:FormatPath"]}
{"id": "C83", "title": "Joining paths", "statement": "Joins leads from the first non-empty element down through the other elements one after the other, and the result is canonical; joining in two steps is the same as joining at once.", "quantifier": "all lists of elements, all working directories", "why_tests_cant": "The input space is unbounded (or 2^32/2^64 wide), so no finite sample of inputs settles it.", "anchors": ["fs/file_path.go:Joins", "fs/file_path.go:Join"]}
{"id": "C84", "title": "Relative paths lead back", "statement": "Following the path given by Relate(root) from root leads to the path itself.", "quantifier": "all pairs of paths, all working directories", "why_tests_cant": "The input space is unbounded (or 2^32/2^64 wide), so no finite sample of inputs settles it.", "anchors": ["fs/file_path.go:Relate", "fs/file_path.go:RelateGoPath", "fs/file_path.go:RelateWorkPath", "fs/file_line.go:RelatePath"]}
{"id": "C85", "title": "Rename, Link and Symlink targets", "statement": "A new name that is not absolute is taken from the directory of the path; an absolute one is taken as it is.", "quantifier": "all paths and names, all working directories", "why_tests_cant": "The input space is unbounded (or 2^32/2^64 wide), so no finite sample of inputs settles it.", "anchors": ["fs/file_path.go:Rename", "fs/file_path.go:Link", "fs/file_path.go:Symlink", "fs/file_path.go:relateThisPath"]}
{"id": "C86", "title": "Move and Copy go to the destination", "statement": "Move moves to the same place Rename would, and Copy copies to it.", "quantifier": "all paths and destinations, all working directories", "why_tests_cant": "The input space is unbounded (or 2^32/2^64 wide), so no finite sample of inputs settles it.", "anchors": ["fs/file_path.go:Move", "fs/file_path.go:Copy"]}
{"id": "C87", "title": "HasPrefix means being below", "statement": "HasPrefix(p) holds exactly when p is the path itself or a directory above it.", "quantifier": "all pairs of absolute paths", "why_tests_cant": "The input space is unbounded (or 2^32/2^64 wide), so no finite sample of inputs settles it.", "anchors": ["fs/file_path.go:HasPrefix"]}
{"id": "C88", "title": "Directory and last element", "statement": "Joining the directory and the last element of a path gives the path again, and the directory is the one the path is in; Split cuts behind the last slash, FileName is the part behind it, and Ext is what follows its last dot, with the dot.", "quantifier": "all paths", "why_tests_cant": "The input space is unbounded (or 2^32/2^64 wide), so no finite sample of inputs settles it.", "anchors": ["fs/file_path.go:Dir", "fs/file_path.go:Base", "fs/file_path.go:Split", "fs/file_path.go:Ext", "fs/fs.go:FileName"]}
{"id": "C89", "title": "Create makes the path", "statement": "Create returns, and when it reports success the path exists.", "quantifier": "all paths, all states of the file system", "why_tests_cant": "A test runs finitely many histories; the claim ranges over histories of every length, with internal resizes at arbitrary points.", "anchors": ["fs/fs.go:Create"]}
{"id": "C90", "title": "The Go path", "statement": "GoPath is the src directory of the first entry of the environment variable GOPATH.", "quantifier": "all values of the variable", "why_tests_cant": "The input space is unbounded (or 2^32/2^64 wide), so no finite sample of inputs settles it.", "anchors": ["fs/file_line.go:GoPath", "fs/file_line.go:goPath"]}
{"id": "C91", "title": "String hashes show the digest", "statement": "For every method from MD5 to FINGERPRINT the text of a string's hash is the hexadecimal digest, two letters per byte; with the length variant it is preceded by the number of bytes, so strings of different lengths never share it; the method NONE gives a different text to every object; an unknown method panics.", "quantifier": "all strings, all methods, all underlying hash functions", "why_tests_cant": "The input space is unbounded (or 2^32/2^64 wide), so no finite sample of inputs settles it.", "anchors": ["hash/hash.go:StringHash", "hash/hash.go:StringHashL", "hash/hash.go:New"]}
{"id": "C92", "title": "RSA keys, encryption and signatures round-trip", "statement": "Keys generated by GenRsaKeys are accepted by NewServer and NewClient; what the client encrypts the server decrypts to the same bytes unless the message is too long, which is an error; a signature is accepted for the text it was made for and only for texts with the same digest; a text that is no RSA key gives an error.", "quantifier": "all keys, messages, hash functions, random sources", "why_tests_cant": "The input space is unbounded (or 2^32/2^64 wide), so no finite sample of inputs settles it.", "anchors": ["crypto/rsa/rsa.go:GenRsaKeys", "crypto/rsa/rsa.go:NewClient", "crypto/rsa/rsa.go:NewServer", "crypto/rsa/rsa.go:Sign", "crypto/rsa/rsa.go:Verify"]}
{"id": "C93", "title": "Error texts identify the error", "statement": "The text of an error shows its id, its registered name and its own text; texts of errors with different ids differ; later registrations do not change it; ShowAll lists every registered id once, in order; a standard error that is wrapped keeps its text.", "quantifier": "all histories of registrations, all errors", "why_tests_cant": "A test runs finitely many histories; the claim ranges over histories of every length, with internal resizes at arbitrary points.", "anchors": ["errors/with_id.go:Error", "errors/with_id_string.go:Error", "errors/errors.go:ShowAll", "errors/errors.go:StdErr"]}
{"id": "C94", "title": "The file mutex excludes and waits", "statement": "At most one mutex holds the lock on a file at any time; Lock waits while another holds it and succeeds once it is released.", "quantifier": "all schedules of any number of goroutines, mutexes and files", "why_tests_cant": "A test runs finitely many histories; the claim ranges over histories of every length, with internal resizes at arbitrary points.", "anchors": ["sync/filelock/mutex.go:Lock", "sync/filelock/mutex.go:Unlock"]}
{"id": "C95", "title": "Singly linked list with a tail", "statement": "With a tail pointer, Back is always the last node, PushBack appends behind it, PopBack removes it, MoveBack moves a node there and PushBackList appends all nodes of another list, in every history of calls, together with all calls of the plain list.", "quantifier": "all histories of calls on any number of lists", "why_tests_cant": "A test runs finitely many histories; the claim ranges over histories of every length, with internal resizes at arbitrary points.", "anchors": ["stl/gp/slist.gp.go:PushBack", "stl/gp/slist.gp.go:PopBack", "stl/gp/slist.gp.go:MoveBack", "stl/gp/slist.gp.go:PushBackList", "stl/gp/slist.gp.go:Remove"]}
{"id": "C96", "title": "Strings and byte slices share memory", "statement": "StringBytes, BytesString, StringPointer and BytesPointer give the same bytes at the same address without copying; a write through the slice changes that byte of every overlapping string and nothing else; no re-slicing or appending reaches behind the end of the string; Writeable(x) holds exactly when the memory may be written.", "quantifier": "all memories, strings, slices and writes", "why_tests_cant": "The input space is unbounded (or 2^32/2^64 wide), so no finite sample of inputs settles it.", "anchors": ["unsafe/string.go:StringBytes", "unsafe/string.go:BytesString", "unsafe/string.go:StringPointer", "unsafe/string.go:BytesPointer", "unsafe/string.go:Writeable"]}
{"id": "C97", "title": "Equality of floats up to a tolerance", "statement": "Equal(a,b) holds exactly when a and b are less than a millionth apart; it is an equivalence relation.", "quantifier": "all pairs of floats, including infinities and NaN", "why_tests_cant": "The input space is unbounded (or 2^32/2^64 wide), so no finite sample of inputs settles it.", "anchors": ["math/float.go:Equal"]}
{"id": "C98", "title": "Generators without a seed differ", "statement": "Generators created one after the other without a seed start from different seeds, so that they give different numbers.", "quantifier": "all histories of creations, all clock readings and addresses", "why_tests_cant": "A test runs finitely many histories; the claim ranges over histories of every length, with internal resizes at arbitrary points.", "anchors": ["math/rand/rand.go:RandSeed", "math/rand/rand.gp_32.go:NewRand32", "math/rand/rand.gp_64.go:NewRand64"]}
{"id": "C99", "title": "Bounded random numbers have a long period", "statement": "The numbers of RandMax(m) do not start to repeat before the generator itself does, and over a whole period of the 64-bit generator every number below m occurs equally often, up to one. (For powers of two they repeat much earlier.)", "quantifier": "all seeds, all bounds", "why_tests_cant": "A test runs finitely many histories; the claim ranges over histories of every length, with internal resizes at arbitrary points.", "anchors": ["math/rand/rand.gp_32.go:RandMax", "math/rand/rand.gp_64.go:RandMax"]}
{"id": "C100", "title": "ParseDuration reads what String writes", "statement": "ParseDuration of the text of a duration gives that duration.", "quantifier": "all 64-bit durations", "why_tests_cant": "The input space is unbounded (or 2^32/2^64 wide), so no finite sample of inputs settles it.", "anchors": ["time/duration.go:ParseDuration", "time/duration.go:String"]}
{"id": "C101", "title": "Texts of registered values", "statement": "The text of a registered value identifies it: it shows registrar, number, name and current value; the text of an invalid identifier says so; ShowAllRegs lists every registrar and value in order of registration with its current value; RegO and GetNoErr agree with Reg and Get.", "quantifier": "all histories of registrations, Sets and limits", "why_tests_cant": "A test runs finitely many histories; the claim ranges over histories of every length, with internal resizes at arbitrary points.", "anchors": ["regable/reg.go:String", "regable/reg.go:ShowAllUint32Regers", "regable/reg.go:RegO", "regable/reg.go:GetNoErr", "regable/regable.go:ShowAllRegs"]}
{"id": "C102", "title": "Backtraces show the call chain", "statement": "Bt and Caller(d) show the frame of the function that calls them and of its d-th caller, with file and line of the current call; Bts and CallStackList show all frames from there outwards, in order, with the same lines; Assert(false) panics with such a text.", "quantifier": "all stacks, all depths", "why_tests_cant": "The input space is unbounded (or 2^32/2^64 wide), so no finite sample of inputs settles it.", "anchors": ["debug/backtrace.go:Bt", "debug/backtrace.go:Caller", "debug/backtrace.go:Bts", "debug/backtrace.go:CallStackInfo", "debug/backtrace.go:CallStackList", "debug/assert.go:Assert", "fs/file_line.go:FileLine", "fs/file_line.go:Func"]}
{"id": "C103", "title": "The reader-writer file lock excludes", "statement": "While a path is locked for writing by one RWMutex, no other holds it, for reading or for writing.", "quantifier": "all schedules of any number of goroutines and mutexes", "why_tests_cant": "A test runs finitely many histories; the claim ranges over histories of every length, with internal resizes at arbitrary points.", "anchors": ["sync/filelock/rwmutex.go:Lock", "sync/filelock/rwmutex.go:RLock"]}
{"id": "C104", "title": "Type helpers", "statement": "New(x) gives a new value of the type of x; IsSameType tells whether two values have the same dynamic type; IsCmpableInnterType tells whether values can be compared with <; none of them panics.", "quantifier": "all dynamic types, nil included", "why_tests_cant": "The input space is unbounded (or 2^32/2^64 wide), so no finite sample of inputs settles it.", "anchors": ["reflect/reflect.go:New", "reflect/reflect.go:IsSameType", "reflect/reflect.go:Kind", "reflect/reflect.go:IsCmpableInnterType"]}
{"id": "C105", "title": "ParseDuration reads every duration text", "statement": "A text of one or more decimal numbers, each with an optional fraction of whole nanoseconds and a unit from ns to h, behind an optional sign, is read as the signed sum of its terms when that fits into 64 bits and refused otherwise; a number without a unit or with an unknown unit is refused with an error that says so.", "quantifier": "all sequences of terms, all numbers of digits, both signs", "why_tests_cant": "The input space is unbounded (or 2^32/2^64 wide), so no finite sample of inputs settles it.", "anchors": ["time/duration.go:ParseDuration"]}
{"id": "C106", "title": "The lock-free list never blocks", "statement": "No goroutine ever waits inside a call of the lock-free list; whatever the schedule, an execution with k calls by p goroutines has at most k(3p+5) memory accesses, so once no further calls are made all pending calls return.", "quantifier": "all schedules of any number of goroutines and calls", "why_tests_cant": "A test runs finitely many histories; the claim ranges over histories of every length, with internal resizes at arbitrary points.", "anchors": ["stl/gp/lfqueue.gp.go:PushFront", "stl/gp/lfqueue.gp.go:PopFront", "stl/gp/lfqueue.gp.go:Clear", "stl/gp/lfqueue.gp.go:Empty"]}
{"id": "C107", "title": "The ring buffer does not deadlock", "statement": "Goroutines in MustPush and MustPop never wait for each other in a circle: while calls are pending some goroutine can go on, unless all of them push into a full buffer with no pops left or all pop from an empty one with no pushes left; a balanced set of calls completes after at most six steps per call besides waiting.", "quantifier": "all schedules, any number of goroutines and calls (below 2^64), all power-of-two sizes", "why_tests_cant": "A test runs finitely many histories; the claim ranges over histories of every length, with internal resizes at arbitrary points.", "anchors": ["stl/gp/ringbuffer.gp.go:MustPush", "stl/gp/ringbuffer.gp.go:MustPop"]}
{"id": "C108", "title": "Durations as floating point numbers", "statement": "Seconds, Minutes, Hours, Days and Weeks give the length of a duration in that unit: exactly for whole numbers of units, otherwise with a relative error of at most 2^-52 (and a trace); a longer duration never gives a smaller number, and different durations give different numbers.", "quantifier": "all 64-bit durations, negative ones included", "why_tests_cant": "The input space is unbounded (or 2^32/2^64 wide), so no finite sample of inputs settles it.", "anchors": ["time/duration.go:Days", "time/duration.go:Weeks", "time/duration.go:Seconds", "time/duration.go:Minutes", "time/duration.go:Hours"]}
{"id": "C109", "title": "Fractions of any length in ParseDuration", "statement": "Numbers with any number of digits behind the point are read as their value rounded down to the nanosecond; digits that do not matter, such as zeros at the end, change nothing.", "quantifier": "all sequences of terms, all numbers of digits before and behind the point", "why_tests_cant": "The input space is unbounded (or 2^32/2^64 wide), so no finite sample of inputs settles it.", "anchors": ["time/duration.go:ParseDuration"]}
{"id": "C110", "title": "The random number generators never block", "statement": "No goroutine ever waits inside a call of a generator; whatever the schedule, an execution with k calls by p goroutines has at most k(2p+4) memory accesses; what a goroutine does next is determined by the seed it sees.", "quantifier": "all schedules of any number of goroutines and calls, all seeds", "why_tests_cant": "A test runs finitely many histories; the claim ranges over histories of every length, with internal resizes at arbitrary points.", "anchors": ["math/rand/rand.gp_32.go:Rand", "math/rand/rand.gp_64.go:Rand", "math/rand/rand.gp_32.go:Srand", "math/rand/rand.gp_32.go:Seed"]}
{"id": "C111", "title": "A call that has begun can always go on", "statement": "A goroutine inside a call of the spin locks or of the lock-free list always has exactly one next step, whatever the other goroutines did; in the file lock this holds except in front of the mutex's inner lock while another goroutine is inside.", "quantifier": "all states, all goroutines", "why_tests_cant": "A test runs finitely many histories; the claim ranges over histories of every length, with internal resizes at arbitrary points.", "anchors": ["sync/spinlock.go:SpinLock", "sync/spinrwlock.go:RWSpinLock", "stl/gp/lfqueue.gp.go:PushFront", "stl/gp/lfqueue.gp.go:PopFront", "sync/filelock/mutex.go:Lock", "sync/filelock/mutex.go:Unlock"]}
{"id": "C112", "title": "The salted hash of strings", "statement": "Hash(s) is the SHA-512 digest of five copies of s between two salts, so different inputs share it only through a collision of SHA-512; HashString(s) is its hexadecimal text and is read back by HexStringToBytes.", "quantifier": "all byte strings, all hash functions", "why_tests_cant": "The input space is unbounded (or 2^32/2^64 wide), so no finite sample of inputs settles it.", "anchors": ["crypto/rsa/code.go:Hash", "crypto/rsa/code.go:HashString", "crypto/rsa/code.go:HexStringToBytes"]}
{"id": "C113", "title": "Containers over shared memory", "statement": "The results of sort slices, stacks and heap functions do not depend on capacities or on how append grows arrays; what Buffer returns shares the elements until the container outgrows it and is independent afterwards; SortHeap, MakeHeap and PopHeap rearrange the caller's slice in place and write nothing else; PushHeap on a slice with spare capacity writes the caller's array behind the slice; containers in different arrays never affect each other.", "quantifier": "all memories, slices, capacities, growth policies and histories of calls", "why_tests_cant": "A test runs finitely many histories; the claim ranges over histories of every length, with internal resizes at arbitrary points.", "anchors": ["stl/sort_slice.gp_int.go:Buffer", "stl/sort_slice.gp_int.go:Insert", "stl/sort_slice.gp_int.go:Remove", "stl/heap.gp_int.go:SortHeap", "stl/heap.gp_int.go:PushHeap", "stl/stack.gp_int.go:Push"]}
{"id": "C114", "title": "Hashing trees with the methods NONE and FINGERPRINT", "statement": "Hash(NONE, salt) gives every file and directory of a tree a hash of its own that says nothing about the content, and the total size; hashing again gives other hashes. Hash(FINGERPRINT, \"\") of a file is its fingerprint without the dashes; for directories and with a salt the size field counts the bytes hashed instead of the bytes of the files.", "quantifier": "all directory trees, all salts, all values of the counter", "why_tests_cant": "The input space is unbounded (or 2^32/2^64 wide), so no finite sample of inputs settles it.", "anchors": ["fs/file_path.go:Hash", "hash/none_hash.go:NewNoneHash", "hash/finger_print.go:Sum"]}
{"id": "C115", "title": "Unlocking an RWSpinLock that is not locked panics", "statement": "Unlock panics whenever nobody holds the write lock, and RUnlock panics whenever there are no readers, as long as all goroutines unlocked only what they locked before. (A caller that recovers leaves the lock broken, and RUnlock by a goroutine that holds nothing goes unnoticed while another one reads.)", "quantifier": "all interleavings of fewer than 2^30 goroutines", "why_tests_cant": "A test runs finitely many histories; the claim ranges over histories of every length, with internal resizes at arbitrary points.", "anchors": ["sync/spinrwlock.go:Unlock", "sync/spinrwlock.go:RUnlock"]}
{"id": "C116", "title": "The working directory", "statement": "After any history of Chdir calls that did not panic, WorkPath() is an absolute path of the working directory of the process, which is where the successful calls lead one after the other; a failing Chdir changes nothing; Joins(WorkPath(), p) names from everywhere the file that the relative path p names now; RelateWorkPath(p) leads from the working directory to p. (RelateWorkPath of a relative path is always \".\"; after a recovered panic of Chdir, or an os.Chdir by other code, WorkPath is that of the last Chdir that returned nil.)", "quantifier": "all histories of calls of Chdir and os.Chdir, all paths, all systems of directories without symbolic links", "why_tests_cant": "A test runs finitely many histories; the claim ranges over histories of every length, with internal resizes at arbitrary points.", "anchors": ["fs/file_line.go:Chdir", "fs/file_line.go:WorkPath", "fs/file_line.go:RelateWorkPath"]}
{"id": "C117", "title": "Trees of nodes behind pointers", "statement": "All of a node returns exactly when the node leads to a finite tree, and then its values, parents first. AddChild, AddChildNode, RemoveChild and SortChildren change the node they are called on and no other; every tree that has that node, wherever it stands, changes accordingly. As long as no node is added below itself no call panics and All returns for every node; as long as only nodes without a parent are added, no node is in two places. (A node added below itself is not refused, and All never returns then.)", "quantifier": "all memories, all histories of calls, all sorting algorithms", "why_tests_cant": "A test runs finitely many histories; the claim ranges over histories of every length, with internal resizes at arbitrary points.", "anchors": ["stl/tree.gp_int.go:All", "stl/tree.gp_int.go:AddChild", "stl/tree.gp_int.go:AddChildNode", "stl/tree.gp_int.go:RemoveChild", "stl/tree.gp_int.go:SortChildren"]}
{"id": "C118", "title": "Visiting a tree that is edited", "statement": "A visitor of a tree in memory is a cursor on the list that All returns while nobody edits the tree. Whatever edits are made in between, Next returns and neither Next nor Get panics. (Prev panics exactly when so many children were removed that none is left at the place before the visitor; removing the child the visitor is at makes Next skip the following one.)", "quantifier": "all memories, with nil children, sharing and cycles; all interleavings of edits and moves", "why_tests_cant": "A test runs finitely many histories; the claim ranges over histories of every length, with internal resizes at arbitrary points.", "anchors": ["stl/tree.gp_int.go:Visitor", "stl/tree.gp_int.go:Next", "stl/tree.gp_int.go:Prev", "stl/tree.gp_int.go:Get"]}
{"id": "C119", "title": "Unusual arguments of the doubly linked list and edits during a visit", "statement": "Nil nodes and nil marks, a node as its own mark, and nodes that are in no list change nothing; removing a node twice does nothing; a node may be removed through any list; a list inserted into itself stays as it is; removing nodes while a visitor walks over the list is harmless. (Proved false: removing the first node of another list leaves that list broken, and if it is its only node also empties the list it is called on; a list inserted into itself is empty afterwards; when the node a visitor is at is removed, Next returns true with no node and then starts again, for ever if it was the first node.)", "quantifier": "all lists, nodes, marks and visitors", "why_tests_cant": "A test runs finitely many histories; the claim ranges over histories of every length, with internal resizes at arbitrary points.", "anchors": ["stl/list.gp_int.go:Remove", "stl/list.gp_int.go:InsertBefore", "stl/list.gp_int.go:InsertBackList", "stl/list.gp_int.go:Next", "stl/list.gp_int.go:MoveBefore"]}
{"id": "C120", "title": "Unusual arguments of the singly linked list", "statement": "Nil nodes and nil marks and a node as its own mark change nothing; MoveAfter with a mark in another list moves the node over to that list. (Inserting at the front a node that is in the list makes a cycle of it and the nodes before it and loses the others; PushFrontList of a list with itself makes a cycle of all its nodes, and removing a node that is not among them then never ends.)", "quantifier": "all lists, nodes and marks", "why_tests_cant": "The input space is unbounded (or 2^32/2^64 wide), so no finite sample of inputs settles it.", "anchors": ["stl/slist.gp_int.go:InsertAfter", "stl/slist.gp_int.go:InsertFront", "stl/slist.gp_int.go:MoveAfter", "stl/slist.gp_int.go:PushFrontList", "stl/slist.gp_int.go:Remove"]}
{"id": "C121", "title": "The error registry with many goroutines", "statement": "Whatever goroutines call Reg, Get and ShowAll at the same time, Reg and Get give the results of a registry in which each call happens at one instant between its call and its return: no identifier is handed out twice, Get of a registered identifier gives its name and never panics. ShowAll, which takes no lock, never panics and lists all errors registered when it was called and only registered ones (the count in its first line may be smaller than the number of lines). No deadlock is possible.", "quantifier": "all interleavings of any number of goroutines and calls", "why_tests_cant": "A test runs finitely many histories; the claim ranges over histories of every length, with internal resizes at arbitrary points.", "anchors": ["errors/errors.go:Reg", "errors/errors.go:Get", "errors/errors.go:ShowAll", "errors/errors.go:IsValid"]}
{"id": "C122", "title": "Registered values with many goroutines", "statement": "After the registration phase, whatever goroutines call Get, Set, Name, String and Oject of identifiers and objects at the same time, each call takes effect at one instant between its call and its return on a book of names and values; nobody reads a record while it is written; no deadlock is possible. (Registering by several goroutines at once is not safe: two calls of Reg can return the same identifier and lose one of the values.)", "quantifier": "all registration phases within the documented limits, all interleavings of any number of goroutines and calls", "why_tests_cant": "A test runs finitely many histories; the claim ranges over histories of every length, with internal resizes at arbitrary points.", "anchors": ["regable/reg.go:Get", "regable/reg.go:Set", "regable/reg.go:Name", "regable/reg.go:String", "regable/reg.go:Oject", "regable/reg.go:Reg"]}
{"id": "C123", "title": "Objects guarded by a spin lock, and locked sequences", "statement": "An object whose methods are correct when run alone, and which are called only between Lock and Unlock of a SpinLock, is linearizable with any number of goroutines; a panic with a deferred Unlock harms nobody else. In particular a guarded stack is a linearizable LIFO stack, and SeqNext64 hands out consecutive identifiers, none twice before the 64 bit numbers are used up. (Without deferring Unlock, a panic in a method locks everybody out for ever; Seq64.Next without the lock can return the same identifier to two goroutines.)", "quantifier": "all objects, all interleavings of any number of goroutines and calls", "why_tests_cant": "A test runs finitely many histories; the claim ranges over histories of every length, with internal resizes at arbitrary points.", "anchors": ["sync/spinlock.go:Lock", "sync/spinlock.go:Unlock", "math/seq/sequence64.go:SeqNext64", "math/seq/sequence64.go:Next", "math/range_uint64.go:Inc", "math/range_uint64.go:Set"]}
{"id": "C124", "title": "Queue and deque exactly", "statement": "No call on a queue or deque panics (Shrink of the queue apart), and every history of calls gives the results predicted from three things alone: the elements, the slot of the first element and the number of slots. Both are sequences as documented, except that the push that fills the buffer of a queue whose first element is not in slot 0 empties the queue, and that growing or shrinking a deque whose elements reach beyond the end of its buffer lays those over the first elements and fills up with zero values.", "quantifier": "all histories of calls, of any length, on any element type", "why_tests_cant": "The input space is unbounded (or 2^32/2^64 wide), so no finite sample of inputs settles it.", "anchors": ["stl/queue.gp_int.go:Push", "stl/queue.gp_int.go:Pop", "stl/queue.gp_int.go:Init", "stl/deque.gp_int.go:PushFront", "stl/deque.gp_int.go:PushBack", "stl/deque.gp_int.go:PopFront", "stl/deque.gp_int.go:PopBack", "stl/deque.gp_int.go:Shrink"]}
{"id": "C125", "title": "Few comparisons in the heap", "statement": "PushHeap onto n elements makes at most log2(n+1) comparisons, PopHeap at most 2 log2(n-1), MakeHeap at most 2n, and SortHeap at most 2n + 2n log2(n-1) (logarithms rounded down); the result depends on no other comparison.", "quantifier": "all slices of all lengths, all comparison functions, consistent or not", "why_tests_cant": "The input space is unbounded (or 2^32/2^64 wide), so no finite sample of inputs settles it.", "anchors": ["stl/heap.gp_int.go:PushHeap", "stl/heap.gp_int.go:PopHeap", "stl/heap.gp_int.go:MakeHeap", "stl/heap.gp_int.go:SortHeap"]}
{"id": "C126", "title": "The memory of queue and deque", "statement": "Whatever calls are made, a queue or deque never has more slots than Init asked for (8 without Init) or twice the largest number of elements it ever held plus two, whichever is more; repeated Shrink of a deque brings it down to 8 slots or less than three times the number of elements.", "quantifier": "all histories of calls of any length", "why_tests_cant": "The input space is unbounded (or 2^32/2^64 wide), so no finite sample of inputs settles it.", "anchors": ["stl/queue.gp_int.go:Push", "stl/queue.gp_int.go:Init", "stl/deque.gp_int.go:PushBack", "stl/deque.gp_int.go:PushFront", "stl/deque.gp_int.go:Shrink"]}
{"id": "C127", "title": "The work of growing queue and deque", "statement": "Over a whole history of calls, growing moves at most two elements per push: pushing n elements one by one takes time proportional to n, although a single push may move all elements. With Shrink among the calls of a deque, growing and shrinking together move at most six elements per push besides once the number of slots Init asked for (8 without Init), so alternating pushes and shrinks cannot be slow.", "quantifier": "all histories of calls of any length", "why_tests_cant": "The input space is unbounded (or 2^32/2^64 wide), so no finite sample of inputs settles it.", "anchors": ["stl/queue.gp_int.go:Push", "stl/queue.gp_int.go:Init", "stl/deque.gp_int.go:PushBack", "stl/deque.gp_int.go:PushFront", "stl/deque.gp_int.go:Shrink"]}
{"id": "C128", "title": "Heaps whose memory is shared", "statement": "A heap object works in an array that its Buffer shares. In any memory and with any growth policy of append, no call panics and every history of calls is that of a priority queue; nothing outside the array of the heap is written, and two heaps in different arrays never disturb each other. Buffer stays a live view of the elements exactly until they do not fit its capacity, the empty heap is popped, or Init asks for more; from then on the two have nothing in common. A heap with a limit and at least that capacity never allocates again unless it is popped when empty. CheckHeap answers for every slice and writes nothing; Reverse reverses a non-empty slice in place and writes nothing else.", "quantifier": "all memories, all slices sharing an array, all growth policies, all histories of calls", "why_tests_cant": "A test runs finitely many histories; the claim ranges over histories of every length, with internal resizes at arbitrary points.", "anchors": ["stl/heap.gp_int.go:Init", "stl/heap.gp_int.go:Push", "stl/heap.gp_int.go:Pop", "stl/heap.gp_int.go:Top", "stl/heap.gp_int.go:Buffer", "stl/heap.gp_int.go:CheckHeap", "stl/heap.gp_int.go:Reverse"]}
{"id": "C129", "title": "Sorting in place through Less and Swap", "statement": "Sort of a sort slice returns for every content and leaves the same elements in ascending order, in place: whatever Buffer returned before shows them so, slices elsewhere are untouched, and no memory is asked for. This holds whatever algorithm the library uses, and even with an inconsistent order or a panic no element is lost or doubled. Less(i, j) compares element i with element j. Init with a capacity of 0 or more gives an empty slice in memory of its own; a negative capacity panics. SortChildren of a node with two or more children one of which is nil panics, with every sorting algorithm there is, and otherwise orders the children by value.", "quantifier": "all memories, slices and capacities; all algorithms that work through Len, Less and Swap", "why_tests_cant": "The input space is unbounded (or 2^32/2^64 wide), so no finite sample of inputs settles it.", "anchors": ["stl/sort_slice.gp_int.go:Sort", "stl/sort_slice.gp_int.go:Less", "stl/sort_slice.gp_int.go:Swap", "stl/sort_slice.gp_int.go:Init", "stl/sort_slice.gp_int.go:NewIntSortSlice", "stl/tree.gp_int.go:SortChildren"]}
{"id": "C130", "title": "The lock-free deque makes progress unless it is full", "statement": "A goroutine inside a call of the lock-free deque waits only while it pushes into a full buffer; otherwise it has exactly one next step, whatever the others did. Apart from this waiting an execution with k calls by p goroutines has at most k(3p+2) memory accesses, whatever the schedule; the calls that are pending get stuck only if all of them push into a full buffer.", "quantifier": "all schedules of any number of goroutines and calls, all states and sizes", "why_tests_cant": "A test runs finitely many histories; the claim ranges over histories of every length, with internal resizes at arbitrary points.", "anchors": ["stl/gp/lfdeque.gp.go:PushBack", "stl/gp/lfdeque.gp.go:PushFront", "stl/gp/lfdeque.gp.go:PopFront", "stl/gp/lfdeque.gp.go:PopBack"]}
{"id": "C131", "title": "Links and renaming among symbolic links", "statement": "Symlink leaves a link that leads where the path leads, Link a second name of the same file, Rename moves what is at the path and all below it to the new name and nothing else; with a plain name all three stay in the directory of the path, and renaming back restores everything. Paths that led somewhere still do after Symlink and Link.", "quantifier": "all file systems with files, directories and symbolic links, all working directories, all paths and names", "why_tests_cant": "The input space is unbounded (or 2^32/2^64 wide), so no finite sample of inputs settles it.", "anchors": ["fs/file_path.go:Symlink", "fs/file_path.go:Link", "fs/file_path.go:Rename", "fs/file_path.go:relateThisPath"]}
{"id": "C132", "title": "A path object leads where its text leads", "statement": "FilePath rewrites the text it is given; the path object leads to the same file or directory as the text did.", "quantifier": "all file systems with files, directories and symbolic links, all working directories, all texts", "why_tests_cant": "The input space is unbounded (or 2^32/2^64 wide), so no finite sample of inputs settles it.", "anchors": ["fs/file_path.go:FilePath"]}
{"id": "C133", "title": "Fingerprints and statistics among symbolic links", "statement": "Fingerprint and Hash of a path return, and give the fingerprint and the size of what is seen there when symbolic links are followed; Statistic counts what is there without following links. Without symbolic links both report the same size.", "quantifier": "all file systems with files, directories and symbolic links (also circular ones and ones that lead nowhere), all paths, all listing orders, hash methods and salts", "why_tests_cant": "The input space is unbounded (or 2^32/2^64 wide), so no finite sample of inputs settles it.", "anchors": ["fs/file_path.go:Fingerprint", "fs/file_path.go:Hash", "fs/file_path.go:Statistic"]}
{"id": "C134", "title": "The sort slice exactly", "statement": "For every history of Push, Insert, Remove, Pop, Get, MustGet, Len, Less, Swap and Sort calls on an IntSortSlice, with recovered panics, every result and every panic is that of a plain sequence, except that Insert at an existing position replaces the element there and returns the old length, and Pop of the empty slice panics. A history agrees with an ideal sequence exactly when no Insert names an existing position and no Pop comes when it is empty. A call that panics changes nothing. After Sort the results depend only on which elements there were.", "quantifier": "all histories, all slices in all memories, all growth policies of append, all sorting algorithms that work through Less and Swap", "why_tests_cant": "A test runs finitely many histories; the claim ranges over histories of every length, with internal resizes at arbitrary points.", "anchors": ["stl/sort_slice.gp_int.go:Push", "stl/sort_slice.gp_int.go:Insert", "stl/sort_slice.gp_int.go:Remove", "stl/sort_slice.gp_int.go:Pop", "stl/sort_slice.gp_int.go:Get", "stl/sort_slice.gp_int.go:MustGet", "stl/sort_slice.gp_int.go:Sort"]}
{"id": "C135", "title": "Directory listing among symbolic links", "statement": "CollectSubs and the functions built on it return, and list exactly the entries asked for below the directory that the path leads to, each once; symbolic links are listed like files and not followed, so circular links and links that lead nowhere do no harm. With full paths every text names the entry it stands for and no two are equal.", "quantifier": "all file systems with files, directories and symbolic links, all paths, working directories, listing orders and options", "why_tests_cant": "The input space is unbounded (or 2^32/2^64 wide), so no finite sample of inputs settles it.", "anchors": ["fs/fs.go:CollectSubs", "fs/fs.go:GetLeafDirs", "fs/fs.go:GetDeepFiles", "fs/fs.go:GetSubs"]}
{"id": "C136", "title": "Lock-free deque with observers", "statement": "On a lock-free deque, while one goroutine calls PushBack, another one calls PopFront and Clear, and any number of goroutines call Size, Empty and Cap, every call takes effect in one moment between its start and its end, as on a first-in first-out queue. No goroutine panics, and no slot of the buffer is ever accessed by two goroutines at once while one of them writes it. (Clear belongs to the consumer: called by the producer it loses values.)", "quantifier": "all buffer sizes from 1 to 2^31-1, all interleavings of all calls, all values", "why_tests_cant": "A test runs finitely many histories; the claim ranges over histories of every length, with internal resizes at arbitrary points.", "anchors": ["stl/gp/lfdeque.gp.go:PushBack", "stl/gp/lfdeque.gp.go:PopFront", "stl/gp/lfdeque.gp.go:Clear", "stl/gp/lfdeque.gp.go:Size", "stl/gp/lfdeque.gp.go:Empty", "stl/gp/lfdeque.gp.go:Cap"]}
{"id": "C137", "title": "Sorting a list with any comparator, and its cost", "statement": "Sort of a doubly linked list of n nodes returns without panic whatever the comparison function answers, even if it is no order at all. It leaves a consistent ring of exactly the old nodes, changes no value and touches no other node. It makes at most n times log2(n) comparisons (logarithm rounded up), and the order of the result depends on nothing but their answers.", "quantifier": "all lists of fewer than 2^64 nodes in any memory, all comparison functions, consistent or not", "why_tests_cant": "The input space is unbounded (or 2^32/2^64 wide), so no finite sample of inputs settles it.", "anchors": ["stl/list.gp_int.go:Sort", "stl/list.gp_int.go:mergeSort", "stl/list.gp_int.go:merge"]}
{"id": "C138", "title": "Looking at the ring buffer while others use it", "statement": "While goroutines call MustPush and MustPop on a ring buffer, Size, Empty and Cap, called by anybody, take effect in one moment between their start and their end and report the number of values in the buffer at that moment; they do not disturb the others. (Size reads two counters one after the other: this holds for a goroutine that is the only one to push or the only one to pop; reported to anybody else, Size can be any negative number and Empty can be true of a buffer that was never empty.)", "quantifier": "all interleavings of any number of goroutines and calls, all power-of-two sizes", "why_tests_cant": "A test runs finitely many histories; the claim ranges over histories of every length, with internal resizes at arbitrary points.", "anchors": ["stl/gp/ringbuffer.gp.go:Size", "stl/gp/ringbuffer.gp.go:Empty", "stl/gp/ringbuffer.gp.go:Cap", "stl/gp/ringbuffer.gp.go:MustPush", "stl/gp/ringbuffer.gp.go:MustPop"]}
{"id": "C139", "title": "Random strings are varied, and many goroutines can draw them", "statement": "strings.Rand draws from one generator that all goroutines share. With any number of goroutines calling it at the same time, every letter the generator yields goes to exactly one call, none is lost or given out twice, and each call returns its letters in the order drawn, exactly as many as it asked for. Every capital letter occurs within 2^31 letters, whatever the seed. Strings are varied: a string of n letters can be any of the 26^n. (This last is false: letters with even and odd number alternate, so at most 2*13^n and never more than 2^32 different strings of one length exist. Concurrent calls can return strings that no sequence of calls returns.)", "quantifier": "all seeds and lengths, all interleavings of any number of goroutines and calls", "why_tests_cant": "A test runs finitely many histories; the claim ranges over histories of every length, with internal resizes at arbitrary points.", "anchors": ["strings/rand.go:Rand", "math/rand/rand.gp_32.go:RandMax", "math/rand/rand.gp_32.go:Rand"]}
{"id": "C140", "title": "File locks when programs crash", "statement": "A program that crashes at any moment, holding a file lock or in the middle of Lock or Unlock, leaves no lock behind: from then on nobody has its files open and a Lock of another program on the same file succeeds at once. Whatever crashes happen, two living programs never hold the lock on a file at the same time, a crash releases nobody else's lock and disturbs no other program, and a crashed program never acts again.", "quantifier": "all interleavings of any number of goroutines, mutexes and processes, all crash points, any number of crashes", "why_tests_cant": "A test runs finitely many histories; the claim ranges over histories of every length, with internal resizes at arbitrary points.", "anchors": ["sync/filelock/mutex.go:Lock", "sync/filelock/mutex.go:Unlock", "sync/filelock/mutex.go:Mutex"]}
{"id": "C141", "title": "INI files are bytes from a reader", "statement": "Load succeeds on whatever bytes a reader delivers, UTF-8 or not, and in whatever pieces; what it gives depends only on the bytes. GetString gives the value of the last line that assigns the key in the section; names, keys and values of any bytes survive writing and loading; a UTF-8 text is read as the characters it consists of; line ends may be those of Unix or Windows; a byte order mark at the beginning of the file is skipped; an error of opening or reading is reported by New. (The last two are false: with a byte order mark the header in the first line is not seen, and when reading fails midway New returns the beginning of the file without an error.)", "quantifier": "all readers that end, with any bytes, pieces and errors", "why_tests_cant": "The input space is unbounded (or 2^32/2^64 wide), so no finite sample of inputs settles it.", "anchors": ["encoding/ini/ini.go:Load", "encoding/ini/ini.go:New", "encoding/ini/ini.go:GetString", "encoding/ini/ini.go:Sections", "encoding/ini/ini.go:Keys"]}
{"id": "C142", "title": "Concurrent use has no data races", "statement": "Goroutines that share a lock-free queue, a ring buffer (MustPush, MustPop), a lock-free deque, or data guarded by a spin lock never race: of two accesses to the same memory one of which writes and one of which is not atomic, one happens before the other, as the Go memory model defines it. So these programs have only the interleavings considered in the other properties. (For the deque this holds with one goroutine on each side and without Clear; two goroutines in PushBack race, two in PopFront race with a PushBack, and Clear races with Busy and with PushBack on the counter it resets with a plain store. For the spin lock nobody may unlock what another has locked.)", "quantifier": "all interleavings of single memory accesses of any number of goroutines and calls, all buffer sizes, all accesses to the guarded data", "why_tests_cant": "A test runs finitely many histories; the claim ranges over histories of every length, with internal resizes at arbitrary points.", "anchors": ["stl/gp/lfqueue.gp.go:PushFront", "stl/gp/lfqueue.gp.go:PopFront", "stl/gp/ringbuffer.gp.go:MustPush", "stl/gp/ringbuffer.gp.go:MustPop", "stl/gp/lfdeque.gp.go:PushBack", "stl/gp/lfdeque.gp.go:PopFront", "stl/gp/lfdeque.gp.go:Clear", "sync/spinlock.go:Lock", "sync/spinlock.go:Unlock"]}
{"id": "C143", "title": "Spin locks in the history of calls", "statement": "Judged by calls and returns alone: in every history in which each Unlock of a spin lock is called by the goroutine whose Lock returned last and that called nothing since, no two goroutines are at the same time between the return of their Lock and their next call, no Unlock panics, and when nobody holds the lock and nobody is inside Unlock a waiting Lock succeeds at its next attempt. For the reader-writer lock no two writers hold it at once. Lock does not panic unless there is a deadlock. (The last is false: a Lock that finds the lock taken 2^24+1 times gives up although the lock was released just as often, and is free; a reader and a writer can hold the reader-writer lock at once, C37.)", "quantifier": "all histories of calls and returns of any number of goroutines, all schedules", "why_tests_cant": "A test runs finitely many histories; the claim ranges over histories of every length, with internal resizes at arbitrary points.", "anchors": ["sync/spinlock.go:Lock", "sync/spinlock.go:Unlock", "sync/spinrwlock.go:Lock", "sync/spinrwlock.go:Unlock"]}
{"id": "C144", "title": "Registries and file mutexes have no data races", "statement": "Goroutines that share the error registry, the registered values or a file mutex never race: of two accesses to the same variable one of which writes, one happens before the other, as the Go memory model defines it for mutexes. So these programs have only the interleavings considered in the other properties. (For the error registry this holds without ShowAll, which reads the counter without the lock; for registered values after the registration: Reg takes no lock, and two of them race.)", "quantifier": "all interleavings of single accesses of any number of goroutines and calls", "why_tests_cant": "A test runs finitely many histories; the claim ranges over histories of every length, with internal resizes at arbitrary points.", "anchors": ["errors/errors.go:Reg", "errors/errors.go:Get", "errors/errors.go:ShowAll", "regable/reg.go:Get", "regable/reg.go:Set", "regable/reg.go:Name", "regable/reg.go:String", "regable/reg.go:Reg", "sync/filelock/mutex.go:Init", "sync/filelock/mutex.go:Lock", "sync/filelock/mutex.go:Unlock"]}
{"id": "C145", "title": "Handing values over between goroutines", "statement": "Whatever a goroutine did before it put a value into the lock-free list, the ring buffer or the deque happens before whatever the goroutine that takes this value out does afterwards, as the Go memory model defines it; every value taken out belongs to a call that put it in, each to a different one. So a pointer may be passed through the container without further synchronization. In the same way what was done before a call of Unlock of a spin lock happens before what every later holder does. (For the deque this holds between one goroutine that pushes and one that pops; two goroutines that pop can both get a value that was pushed once.)", "quantifier": "all interleavings of single memory accesses of any number of goroutines and calls, all buffer sizes", "why_tests_cant": "A test runs finitely many histories; the claim ranges over histories of every length, with internal resizes at arbitrary points.", "anchors": ["stl/gp/lfqueue.gp.go:PushFront", "stl/gp/lfqueue.gp.go:PopFront", "stl/gp/ringbuffer.gp.go:MustPush", "stl/gp/ringbuffer.gp.go:MustPop", "stl/gp/lfdeque.gp.go:PushBack", "stl/gp/lfdeque.gp.go:PopFront", "sync/spinlock.go:Lock", "sync/spinlock.go:Unlock"]}
{"id": "C146", "title": "Ciphers and text encoding as the standards define them", "statement": "TripleDesEncrypt encrypts every 8 byte block with DES under the first third of the key, decrypts under the second and encrypts under the third (FIPS 46-3), the data and the key being filled up with zero bytes; TripleDesDecrypt gives the data back without zero bytes at its end. The AES encrypter is CBC over AES (FIPS 197) with PKCS#7 padding and the first 16 bytes of the key as initialization vector, for keys of 16, 24 and 32 bytes, and the decrypter gives the messages of the stream back. The text of Encode is the base64 text (RFC 4648) of the ciphertext, Decode gives the string back without zero bytes at its end, and line breaks inserted anywhere into the text do not matter.", "quantifier": "all data, keys, strings and streams of messages", "why_tests_cant": "The input space is unbounded (or 2^32/2^64 wide), so no finite sample of inputs settles it.", "anchors": ["crypto/ecb/ecb.go:TripleDesEncrypt", "crypto/ecb/ecb.go:TripleDesDecrypt", "crypto/aes/aes.go:Encrypt", "crypto/aes/aes.go:Decrypt", "crypto/rsa/code.go:Encode", "crypto/rsa/code.go:Decode"]}
{"id": "C147", "title": "What keys and ciphertexts give away", "statement": "Different keys of TripleDesEncrypt encrypt differently; a ciphertext shows nothing of the data but its length; different messages have different ciphertexts; decrypting ciphertexts that somebody else made up does not give the key away. (Different AES messages do have different ciphertexts. The rest is false: keys that differ only in the lowest bits of their bytes are the same, a key of at most 8 bytes or with two equal thirds side by side makes triple DES single DES, equal blocks of the data show as equal blocks of the ciphertext, the first messages of two AES encrypters with one key show what they have in common, data that differ in zero bytes at the end have the same ciphertext, and from one ciphertext anyone can make another whose decryption reveals the first 16 bytes of an AES key.)", "quantifier": "all data, messages and keys", "why_tests_cant": "The input space is unbounded (or 2^32/2^64 wide), so no finite sample of inputs settles it.", "anchors": ["crypto/ecb/ecb.go:TripleDesEncrypt", "crypto/ecb/ecb.go:TripleDesDecrypt", "crypto/aes/aes.go:Encrypt", "crypto/aes/aes.go:Decrypt", "crypto/aes/aes.go:NewAESDecrypter"]}
{"id": "C148", "title": "The ring buffer has no end of life", "statement": "MustPush and MustPop of a ring buffer behave as a bounded FIFO however many values have gone through it. (True for fewer than 2^64 values. The ticket counters have 64 bits: MustPop returns at most 2^64-1 times in any execution; a goroutine that pushes and pops in turn brings the buffer to a state in which nobody is inside a call and no call ever returns again; and just before that MustPush overwrites an unread value instead of waiting.)", "quantifier": "all executions of any number of goroutines and calls, without a bound on their number", "why_tests_cant": "A test runs finitely many histories; the claim ranges over histories of every length, with internal resizes at arbitrary points.", "anchors": ["stl/gp/ringbuffer.gp.go:MustPush", "stl/gp/ringbuffer.gp.go:MustPop"]}
{"id": "C149", "title": "What checksums detect", "statement": "Two contents of the same length that differ only within four consecutive bytes have different CRC-32 hashes, within eight consecutive bytes different CRC-64 hashes, wherever the bytes are and whatever surrounds them. Against intent they do not protect: four (eight) bytes put anywhere into any content give it any CRC-32 (CRC-64). The last six bytes of the fingerprint, which are the middle of the CRC-64, tell contents that differ in the last byte only apart exactly if the low halves of these bytes differ. Among more contents than a hash method has digests, two have the same one.", "quantifier": "all contents, positions and changes, all hash functions", "why_tests_cant": "The input space is unbounded (or 2^32/2^64 wide), so no finite sample of inputs settles it.", "anchors": ["hash/hash.go:New", "hash/hash.go:StringHash", "hash/finger_print.go:Sum"]}
{"id": "C150", "title": "Hash functions as the standards define them", "statement": "The MD5, SHA1, SHA256 and SHA512 hashes of a content, written in whatever pieces, are those of RFC 1321 and FIPS 180-4 of the whole content: it is followed by the byte 0x80, the smallest possible number of zero bytes and its length in bits so that whole blocks come out; every block is worked into the state by the rounds of the standard, with its constants.", "quantifier": "all contents of less than 2^64 bytes and ways of writing them, all blocks and states", "why_tests_cant": "The input space is unbounded (or 2^32/2^64 wide), so no finite sample of inputs settles it.", "anchors": ["hash/hash.go:New", "hash/hash.go:StringHash", "hash/finger_print.go:Write", "crypto/rsa/code.go:Hash"]}
{"id": "C151", "title": "RSA as the standard defines it", "statement": "Encrypt and Decrypt, Sign and Verify are RSA with PKCS #1 v1.5 padding: Decrypt returns a message exactly for the ciphertexts that Encrypt makes of it with some random bytes and an error for all others of the size of the key; equal ciphertexts come from equal messages and equal random bytes only; Verify accepts exactly the one signature that Sign makes of the text; what is signed is the DigestInfo that names the hash function by its object identifier and has the digest of the text. Sign fails exactly for keys that are too short for the hash (94 bytes for the default SHA-512) and for hash functions that signatures do not define, and panics for those that are not linked.", "quantifier": "all keys out of two odd primes, messages, texts, hash numbers, random bytes, ciphertexts and signatures", "why_tests_cant": "The input space is unbounded (or 2^32/2^64 wide), so no finite sample of inputs settles it.", "anchors": ["crypto/rsa/rsa.go:Encrypt", "crypto/rsa/rsa.go:Decrypt", "crypto/rsa/rsa.go:Sign", "crypto/rsa/rsa.go:Verify", "crypto/rsa/rsa.go:SignDefault"]}
{"id": "C152", "title": "Texts of RSA keys", "statement": "GenRsaKeys fails only if no key is found, and its two texts give exactly the generated key to NewServer and its public half to NewClient. It does not matter what is around the block in a key file, which label it has, how its lines are broken and indented and what ends them. A private key given to NewClient and a public key given to NewServer are errors, and so is a key of which bytes at the end are missing. A key that was read is spelled out in the text, in the only form that its numbers have, and a key comes out of a file only if there is a block with a first line, the last line that belongs to it and base64 text. The private text is PKCS #1 and the public text PKIX, in DER, as blocks with lines of 64 characters of base64; every file in this form, whichever program made it, is read as the key it states.", "quantifier": "all keys out of two odd primes, all files", "why_tests_cant": "The input space is unbounded (or 2^32/2^64 wide), so no finite sample of inputs settles it.", "anchors": ["crypto/rsa/rsa.go:GenRsaKeys", "crypto/rsa/rsa.go:NewServer", "crypto/rsa/rsa.go:NewClient", "crypto/rsa/rsa.go:MustNewServer", "crypto/rsa/rsa.go:MustNewClient"]}
{"id": "C153", "title": "Generated RSA keys", "statement": "GenRsaKeys returns an error exactly for fewer than 12 bits. A key it generates has exactly the number of bits asked for; it is the product of two different primes of half the bits each with the highest two bits set, its public exponent is 65537 and its private exponent undoes it. Keys that are generated, written, read, and used encrypt and decrypt exactly the messages of up to an eighth of the bits less 11 bytes, and sign with the default hash function exactly if there are at least 745 bits. Every such pair of primes can come out, no prime is passed over in the search, each try takes new random bytes, and a pair is rejected only if its two primes are equal or 65537 is no exponent for them.", "quantifier": "all numbers of bits, random bytes, messages and texts", "why_tests_cant": "The input space is unbounded (or 2^32/2^64 wide), so no finite sample of inputs settles it.", "anchors": ["crypto/rsa/rsa.go:GenRsaKeys", "crypto/rsa/rsa.go:NewServer", "crypto/rsa/rsa.go:NewClient", "crypto/rsa/rsa.go:Encrypt", "crypto/rsa/rsa.go:SignDefault"]}
{"id": "C154", "title": "Sort with the algorithm of the Go library", "statement": "Sort leaves the elements in ascending order for every strict weak order. Whatever the comparison function answers, even if it is no order at all, Sort returns without a panic, keeps the elements, writes nothing else, and makes at most 12 n (log n + 2) comparisons, so that no input makes it quadratic. Up to six elements that compare equal keep their order; with seven or more they need not.", "quantifier": "all slices, all comparison functions", "why_tests_cant": "The input space is unbounded (or 2^32/2^64 wide), so no finite sample of inputs settles it.", "anchors": ["stl/sort_slice.gp_int.go:Sort", "stl/sort_slice.gp_int.go:Less", "stl/sort_slice.gp_int.go:Swap", "stl/tree.gp_int.go:SortChildren"]}
{"id": "C155", "title": "The order of printed sizes", "statement": "Every file size prints as a number with three decimals and a unit, which can be read in one way only. A larger size never prints as a smaller one: its unit is not smaller, nor is the number of bytes that its text says. Sizes with the same text differ by at most a thousandth of the unit (and 2048 bytes from 2^53 on), so below 1 KB they are equal.", "quantifier": "all 64-bit sizes, all pairs of sizes", "why_tests_cant": "The input space is unbounded (or 2^32/2^64 wide), so no finite sample of inputs settles it.", "anchors": ["fs/file_size.go:String"]}
{"id": "C156", "title": "Directories made with their parents", "statement": "MkdirAll of a path object succeeds exactly if the first components of the path lead to a directory, perhaps through symbolic links, in which the next component is missing, or the whole path leads to a directory. It then makes exactly the missing directories, so that the path leads to a directory; all that was there stays as it is and is reached as before. If it fails it changes nothing. It fails if anything else than a directory is on the way, or a symbolic link that leads nowhere. Calling it again has no effect.", "quantifier": "all file systems with symbolic links, working directories and paths in clean form", "why_tests_cant": "The input space is unbounded (or 2^32/2^64 wide), so no finite sample of inputs settles it.", "anchors": ["fs/file_path.go:MkdirAll", "fs/file_path.go:Mkdir", "fs/file_path.go:Stat"]}
{"id": "C157", "title": "Removal of whole trees", "statement": "RemoveAll removes what the path names and all below it, and nothing else; symbolic links are removed and not followed; it is no error if nothing is there. Remove after Mkdir restores the file system. (True if the path does not pass through what is removed, in particular for absolute paths in file systems without symbolic links. Otherwise RemoveAll can lose its way, leave files behind and report success.)", "quantifier": "all file systems with symbolic links, orders of listing, working directories and paths", "why_tests_cant": "The input space is unbounded (or 2^32/2^64 wide), so no finite sample of inputs settles it.", "anchors": ["fs/file_path.go:RemoveAll", "fs/file_path.go:Remove", "fs/file_path.go:Mkdir", "fs/file_path.go:Lstat"]}
{"id": "C158", "title": "Absolute paths", "statement": "Abs returns an absolute path in clean form that leads, from every working directory, to where the path leads from the current one; a second Abs changes nothing. (With symbolic links this is true if the text of the working directory does not pass through one; it is false if it does and the path starts with ..)", "quantifier": "all file systems with symbolic links, working directories and paths in clean form", "why_tests_cant": "The input space is unbounded (or 2^32/2^64 wide), so no finite sample of inputs settles it.", "anchors": ["fs/file_path.go:Abs", "fs/file_path.go:FilePath"]}
{"id": "C159", "title": "Patterns for file names", "statement": "Match of a path object reports a match only if the pattern is well formed and the path matches it: a star takes any bytes but slashes, a question mark one character that is not a slash, a class one character in or not in its ranges, a byte itself. It reports an error only if the pattern is not well formed. Patterns without stars are always decided rightly; a text with backslashes before every byte stands for itself only; stars and question marks never take slashes. (Whether every path that matches is reported is true for paths in ASCII if no class takes a slash; otherwise false. A pattern that is not well formed may be reported as not matching, without an error.)", "quantifier": "all patterns and paths, of any bytes", "why_tests_cant": "The input space is unbounded (or 2^32/2^64 wide), so no finite sample of inputs settles it.", "anchors": ["fs/file_path.go:Match"]}
{"id": "C160", "title": "Paths without symbolic links", "statement": "EvalSymlinks returns a path in clean form, no part of which leads to a symbolic link, and that leads to where the path leads; a second call returns its argument; a path in clean form without symbolic links is returned as it is; the result of an absolute path is absolute. An error is reported only if the path leads nowhere, or if a limit of steps is exceeded. (A result for a path that leads nowhere is possible if the text of a symbolic link to a file ends with a slash. The limit counts all components and not only symbolic links, so deep paths without links are refused.)", "quantifier": "all file systems with symbolic links, working directories and paths", "why_tests_cant": "The input space is unbounded (or 2^32/2^64 wide), so no finite sample of inputs settles it.", "anchors": ["fs/file_path.go:EvalSymlinks"]}
{"id": "C161", "title": "Lists of paths", "statement": "SplitList returns what stands between the colons of a text, in order: with colons between them the paths are the text again. The path object of a list of paths in clean form gives exactly these paths. (True if no path after the first starts with two steps up and the last of several is not the root; otherwise false, for the list is cleaned like a single path.)", "quantifier": "all lists of paths", "why_tests_cant": "The input space is unbounded (or 2^32/2^64 wide), so no finite sample of inputs settles it.", "anchors": ["fs/file_path.go:SplitList", "fs/file_path.go:FilePath"]}
{"id": "C162", "title": "The working directory with many goroutines", "statement": "While no call of Chdir is going on, WorkPath returns an absolute path of the working directory of the process; with any goroutines, what WorkPath returns is a path of a directory that was the working directory at some time; a Chdir that nothing interrupts behaves as with one goroutine. (The first part is true if no two calls of Chdir overlap and none panics, and false otherwise: two calls that overlap and both succeed can leave WorkPath at the wrong one of the two directories for good. Chdir and WorkPath race.)", "quantifier": "all operating systems, numbers of goroutines, interleavings and histories of calls", "why_tests_cant": "A test runs finitely many histories; the claim ranges over histories of every length, with internal resizes at arbitrary points.", "anchors": ["fs/file_line.go:Chdir", "fs/file_line.go:WorkPath"]}
{"id": "C163", "title": "The caller's file relative to the Go path", "statement": "RelateFileLine returns the line of its call in the caller, and a relative name that leads from the src directory of the Go path to the file of the caller; callers in different files get different names. (True if GOPATH is the absolute path of one directory and the file is known by an absolute path; otherwise false: the name is then the same, a dot, for all files.)", "quantifier": "all call stacks, line tables, values of GOPATH and file names", "why_tests_cant": "The input space is unbounded (or 2^32/2^64 wide), so no finite sample of inputs settles it.", "anchors": ["fs/file_line.go:RelateFileLine", "fs/file_line.go:RelateGoPath"]}
{"id": "C164", "title": "The ordered tree with Clear, and loops over it", "statement": "After every history of insertions and Clear, the tree holds exactly the keys inserted since the last Clear, in order, equal ones in the order of insertion, and Find, Size and Empty agree with that. A client's loop from Begin to End ends and meets exactly these keys. (The loop never ends on an empty tree, where Begin is nil and End is not. The exported Insert does nothing.)", "quantifier": "all histories of insertions and Clear, all keys and all strict weak orders", "why_tests_cant": "A test runs finitely many histories; the claim ranges over histories of every length, with internal resizes at arbitrary points.", "anchors": ["stl/gp/rbtree.gp.go:Clear", "stl/gp/rbtree.gp.go:Init", "stl/gp/rbtree.gp.go:Begin", "stl/gp/rbtree.gp.go:End", "stl/gp/rbtree.gp.go:Empty"]}
{"id": "C165", "title": "Creating and opening files", "statement": "Create succeeds exactly if the path leads to a file, or if there is a free place such that the path leads there once a file is there; the path then leads to an empty file, no other place changes, and each other file keeps its content. All names of the same file read the same. Creating through a link that leads nowhere makes the file the link stands for and keeps the link. Remove after Create of a free name restores the file system. With O_CREATE and O_EXCL only one of any number of calls for the same place succeeds, and nothing there is ever replaced. Opening without O_CREATE and O_TRUNC changes nothing.", "quantifier": "all file systems with links, contents, paths, working directories and flags", "why_tests_cant": "The input space is unbounded (or 2^32/2^64 wide), so no finite sample of inputs settles it.", "anchors": ["fs/file_path.go:Create", "fs/file_path.go:OpenFile", "fs/file_path.go:Open"]}
{"id": "C166", "title": "Truncating files", "statement": "Truncate succeeds exactly for sizes that are not negative and paths that lead to a file. The file then has this size, with the bytes it had and zeros after them, under all its names; no other file and no place changes. Create of an existing file does what Truncate to zero does.", "quantifier": "all file systems with links, contents, paths and sizes", "why_tests_cant": "The input space is unbounded (or 2^32/2^64 wide), so no finite sample of inputs settles it.", "anchors": ["fs/file_path.go:Truncate", "fs/file_path.go:Create"]}
{"id": "C167", "title": "Histories of calls on files", "statement": "After every history of Mkdir, MkdirAll, Symlink, Link, Rename, Remove, RemoveAll, Create, OpenFile and Truncate the root is a directory and everything is in a directory. Without Rename, Remove and RemoveAll in it, everything stays where it is and each path leads where it led. The content of a file changes only by a call that creates, empties or truncates just this file, which is in the file system then; so without such calls everything that could be read reads the same. As long as nothing is renamed or removed after it, a file that was linked is read by both names, also when written in between, one that was renamed to a free name is read by the new name, and a symbolic link to an absolute path leads where that path led.", "quantifier": "all file systems with links, histories of calls, paths and working directories", "why_tests_cant": "A test runs finitely many histories; the claim ranges over histories of every length, with internal resizes at arbitrary points.", "anchors": ["fs/file_path.go:Mkdir", "fs/file_path.go:MkdirAll", "fs/file_path.go:Symlink", "fs/file_path.go:Link", "fs/file_path.go:Rename", "fs/file_path.go:Remove", "fs/file_path.go:RemoveAll", "fs/file_path.go:Create", "fs/file_path.go:OpenFile", "fs/file_path.go:Truncate"]}
{"id": "C168", "title": "Copying a stream into a file", "statement": "If Create has opened a file and Copys of a stream into it returns without error, the stream was read up to its end, and reading the file by its path gives exactly the stream, whose length is the count. It returns so if the stream ends and there is room on the disk for it; if the stream is longer than the room, it returns the error of the disk, and the file holds as much of the stream as there was room for. Whatever it returns, the file holds a beginning of the stream, no shorter than the count, and no other file and no place changes.", "quantifier": "all file systems with links, paths, readers, streams, room on the disk", "why_tests_cant": "The input space is unbounded (or 2^32/2^64 wide), so no finite sample of inputs settles it.", "anchors": ["io/io.go:Copys", "fs/file_path.go:Create"]}
