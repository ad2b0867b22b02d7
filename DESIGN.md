# Formal model of vipally/gx in Lean 4 — design

## 1. Trusted base

* Lean 4.33.0's kernel (and Mathlib where a module imports it, which the same kernel checks).
* Axioms: every theorem depends on at most `propext`, `Classical.choice`, `Quot.sound` (`#print axioms` on any
  theorem named in `MANIFEST.json` shows them).  No axiom is added, there is no `sorry`/`admit`, no `native_decide`, no
  `bv_decide`.  The table of primes (C45) is checked by evaluation in the kernel (`decide +kernel`).
* The hand translation of Go into Lean.  Each model definition cites the file and lines it models and states its
  simplifications.
* The meaning of Go itself as written down in `Verif/Model/Go.lean`: panics are an explicit outcome
  (`Res.panic`), loops that may diverge are run with fuel and the theorems speak about all sufficient fuels.

## 2. Conventions of the model

* `Res α` = `ok a | panic`.  Nil dereference, index/slice out of range, division by zero, explicit
  `panic(..)` all give `panic`.
* A Go slice is a `List` of its visible elements.  Aliasing through spare capacity is modelled only
  where the code depends on it: padding (C74), and `Verif/Model/SliceMem.lean` (arrays in a memory, slices as
  windows, `append` in place or into a new array) for containers that share a backing array.
* The template element type is an arbitrary type `α` with a zero value; the generated `int` code is
  the instance of it.  Element values are only compared, never added.
* Go `int` used for sizes and indices is modelled by `Nat`/`Int` without overflow (slices never reach
  2^63 elements).  Where wrap-around is observable (`uint32`/`uint64` counters, packed words, random
  generators) the model uses `BitVec`, `UInt32`/`UInt64` or explicit `% 2^w`.
* Pointer structures (list, slist, the tree template) are modelled with an explicit heap `Nat → node`, `none` = nil.
* Goroutines: a global state plus one program counter (and registers) per thread; one step = one
  atomic memory access.  Theorems quantify over all finite sequences of steps of any threads.
  Linearizability is stated in `Verif/Spec/Linearizable.lean` (every visible trace is one of the atomic object) and proved by
  forward simulation.

### Assumptions behind the concurrent models

* `sync/atomic` operations are sequentially consistent.  Plain loads/stores the code does between atomics are separate steps.  That
  plain accesses may be interleaved like this is the promise of the Go memory model for programs without data races; C142 proves that
  the queue, the ring buffer, the deque with one goroutine on each side and data under a spin lock have none, and shows the races of the rest; C144 does the same
  for the registries and the file mutexes.
* Nodes are garbage collected: an address is not used again while somebody holds a pointer to it (no ABA).
* The lock-free deque is used after its `Init`; the ring buffer's 64-bit tickets do not wrap.
* `sync.Mutex` and `sync.RWMutex` exclude as documented (C121, C122); nothing is assumed about fairness.
* Unsynchronised reads and writes of two words or more are separate steps, so torn values are possible (`RegConc`).
* File locks (C94): `CreateFile` with share mode 0 and `OPEN_EXISTING` succeeds exactly if the file exists and nobody has it open.
  When a process ends, however it ends, the system closes its handles (C140).

### Library code that is a parameter, with the contract assumed (each structure has an instance, so the contracts are consistent)

* block ciphers DES/AES (`Cipher`: fixed block size, the two directions are inverse), base64 (`Codec`), both written out in C146,
* md5, sha1, crc64 and the other hash functions (`Alg`: writing pieces is writing the concatenation, sums have a fixed length), written out in C149 and C150,
* `sort.Sort` (any function that permutes and orders; the algorithm of Go 1.6 to 1.18 is written out in C154), `filepath.Rel` (`RelFn`: its documentation),
* the operating system: a file tree that does not change during a call; files and directories may fail to open, list or read,
* system calls on paths (C131, C156, C157, C160, C165 to C168): functions or relations on a file system with symbolic and hard links, one call after
  another, with the meaning of symlink(2), link(2), rename(2), mkdir(2), unlink(2), rmdir(2), open(2), truncate(2), stat(2) without rights and limits,
* `os.Chdir`/`os.Getwd` (`WorkDir`: Getwd returns a rooted name of the current directory or an error; no symbolic links),
* the run-time call stack (`Backtrace`: a list of frames with function, file, line and the offset of the call in the
  function; `runtime.Caller` reports the line of the call, `runtime.Callers` return addresses; in a printed `pc` that of Go 1.12 and later),
* `unsafe` (`UnsafeStr`: a memory of bytes with writable and read-only areas, strings and slices as headers),
* reflection (`Reflect`: a syntax of Go types with kinds, names and pointers),
* RSA (`crypto/rsa`, `crypto/x509`, `encoding/pem`): signatures and encryption with the matching key verify and decrypt; RSA itself is written out in C151, its key texts in C152, the generation of keys in C153 (where the test of primes is assumed exact).

### Library code that is written out

hex, CBC chaining, decimal and `%.3f` formatting, `time.Duration.String`, `strings.TrimSpace`/`SplitN`/`Split`,
`bufio.Reader.ReadString` and the decoding of runes by `unicode/utf8` (C141),
`filepath.Clean`/`Join`/`Split`/`Dir`/`Base`/`Walk`/`HasPrefix`/`Abs`/`SplitList`/`Match` (before Go 1.16)/`EvalSymlinks` (before Go 1.8) and `os.MkdirAll`/`RemoveAll` (before Go 1.12) on Unix, `io.Copy` and `io.MultiWriter`,
`fmt.Sprintf` with the verbs the code uses (and formats without arguments, C93), `time.ParseDuration` with its fraction reader
in `float64` (C109; the order of operations is that of Go 1.10 and later, as are `Duration.Seconds/Minutes/Hours`), rounding of
`float64` to nearest even.

## 3. File layout

* `Verif/Model/*.lean` — the translation, with citations.
* `Verif/Spec/*.lean` — small specifications that do not mention the model.
* `Verif/Lemmas/*.lean` — helper lemmas.
* `Verif/Props/*.lean` — property theorems, each with a non-vacuity `example`.
* `seeded/LOG.jsonl` — wrong programs tried against the theorems.

Theorems named `Cnn_..._partial` prove part of a property; `Cnn_..._false` (and `_panics`, `_stuck` …) prove that the code does
not have the property, by exact behaviour for all inputs where possible and by a concrete execution otherwise.

## 4. Per property: what is modelled and how it is proved

| id | modelled code | proof |
|----|----|----|
| C01 | stack.gp_int.go whole file | refinement to `List` by induction over histories |
| C02 | deque.gp_int.go whole file | expected false (growth with a wrapped buffer copies the second part over the first): negation by witness; `_partial` refinement for histories whose growths happen with the data starting at index 0 |
| C03 | same | refinement on the two restricted classes, full proof |
| C04 | Shrink | false for wrapped buffers: witness; `_partial` for unwrapped |
| C05 | queue.gp_int.go | false (the full test is only made when tail wraps): witness; `_partial`: exact refinement for all steps except the push that fills a buffer with head≠0, plus theorem that this push loses everything |
| C06 | Queue.Shrink | false: witness; exact partial for ≤1 element; theorem that ≥2 elements make the next Push panic |
| C07 | heap.gp_int.go | loop invariants "heap except at i" for sift-up/down, multiset preservation |
| C08 | IntHeap methods | invariant by induction on histories, root extremal |
| C09 | SortHeap | invariant "suffix sorted and dominated" |
| C10 | CheckHeap | equivalence |
| C11 | Push with limitN | invariant: kept multiset = N best of all pushed |
| C12 | Reverse | equality with `List.reverse` for non-empty, panic on empty |
| C13 | functorcmp, FileHash.Less | direct |
| C14 | sort_slice.gp_int.go | Insert overwrites: witness + exact partial for the other operations |
| C15 | Sort via Less/Swap | invariance of any swap sequence + uniqueness of sorted permutation |
| C16 | tree.gp_int.go visitor | zipper invariant; cursor refinement over All() |
| C17 | AddChild/RemoveChild | as C14 |
| C18 | list.gp_int.go on a pointer heap | ring predicate `Ring h ids`; each operation refines the list operation and frames other nodes |
| C19 | visitor | traversal of the ring |
| C20 | mergeSort, merge | refinement to list merge, then stable merge sort with bins |
| C21 | InsertAfter | forward correct, backward link of the successor not updated: witness, `_partial` |
| C22 | Move* | witness for failing cases, `_partial` for the rest |
| C23 | Reverse | only ≤1 element works; theorem that it drops all but the first |
| C24 | InsertFrontList | exact result for all inputs, partial for |other|=1 |
| C25 | Reachable | exact: true only for the first node |
| C26 | slist.gp_int.go on a pointer heap | chain predicate, refinement |
| C27 | Len/Empty/Next | false for all lists; exact theorem |
| C28 | HasCycle | exact result by length mod 4, divergence on even cycles |
| C29 | Sort | panics for every list with ≥2 elements |
| C30 | lfqueue.gp.go steps | forward simulation to the atomic stack |
| C31 | size counter | witness; `_partial` without empty pops |
| C32 | lfdeque.gp.go | BitVec round trip; sequential FIFO refinement |
| C33 | lfdeque.gp.go | panicking PushFront; lost value schedule |
| C34 | ringbuffer.gp.go MustPush/MustPop | inductive invariant on tickets |
| C35 | Init, Push, Pop | capacity always 1; wrong results; witness |
| C36 | spinlock.go | inductive invariant |
| C37 | spinrwlock.go | violating schedule; writer/writer exclusion proved |
| C38 | spinrwlock.go | after a reader came and went the inner lock stays taken for ever |
| C39 | rand | linearization invariant |
| C40 | RandRange/RandMax | in range unless the width wraps to 0 (panic) |
| C41 | LCG | order of the affine map modulo 2^k |
| C42 | range_uint*.go | never enforced: witness + exact behaviour |
| C43 | sequence64.go | k-th id formula; wrap beyond max |
| C44 | SqrtUint32 | bitwise invariant |
| C45 | IsPrime + table | no false negative, exact characterisation, witness 25; table completeness by kernel evaluation |
| C46 | CommaString | strip commas = decimal digits |
| C47 | bits_bytes.go | BitVec/Nat lemmas |
| C48 | padding | round trip 1..255; witness at 256 |
| C49 | ecb.go | abstract block cipher; round trip up to trailing zeros |
| C50 | aes.go | chaining invariant |
| C51 | rsa/code.go | hex concrete, base64/3DES parameters |
| C52/53 | finger_print.go | streaming hash parameter; witness for Reset/Size/Sum |
| C54 | none_hash.go | counter invariant |
| C55/56 | ini.go | parser model on lines; last-assignment specification; render/load |
| C57 | file_size.go | least index |
| C58/59 | fs.go CollectSubs | file tree model |
| C60 | file_path.go hash of trees | sort contract + permutation invariance |
| C61 | SplitAll | Unix split; relative paths panic |
| C62 | errors.go | registry invariant |
| C63/64 | regable | registry invariant, packed ids |
| C65 | mapping.gp.go | bijection invariant |
| C66 | io.go CopysBuffer | chunk induction |
| C67 | duration.go | div/mod, injectivity |
| C68 | strings/rand.go | induction on length |
| C69 | rbtree.gp.go | parent-pointer heap; refinement to an inductive tree for insertEqual, next, prev, find |
| C70 | factory | always nil |
| C71 | heap.gp.go in STL mode | loop invariant for PopHeap; MakeHeap and SortHeap: the top is right for all slices (invariant on what holds values above), exact lengths up to which they work, a family of counterexamples at every greater length |
| C72/73 | slist PushFrontList, Reachable, IsValidNode | chain predicate; exact results |
| C74 | padding.go and ecb.go on an array with a slice window | exact effect on the array |
| C75 | file_size.go, float rounding | error bounds over integers |
| C76 | regable/reg.go objects | registry invariant |
| C77/78 | Fingerprint and Hash on trees with failing parts | structural induction; collisions given explicitly |
| C79 | Statistic over filepath.Walk | structural induction |
| C80 | rbtree.gp.go rebalence | false; instead: the exact shape for all histories (the plain search tree of Spec/SearchTree) and the exact cost of Find and insertion, by induction |
| C81 | rbtree.gp.go rotations | separation-style frame argument on the heap |
| C82–C88 | fs/file_path.go, fs/file_line.go on Unix | a path denotes a function on directories (`Spec/Path.lean`); Clean computes a normal form (steps up, names) which determines that function |
| C89 | fs/fs.go Create | induction on fuel |
| C90 | fs/file_line.go goPath | the same path semantics |
| C91 | hash/hash.go, none_hash.go | hexadecimal text is injective; case analysis over the methods |
| C92 | crypto/rsa/rsa.go over a library with a stated contract (`Rsa.Lib.Lawful`) | rewriting with the contract; a toy library shows it is satisfiable |
| C93 | errors/errors.go, with_id.go, with_id_string.go | registry invariant of C62; `fmt.Sprintf` without arguments is a parameter (`Sprintf0`) |
| C94 | sync/filelock/mutex.go on Windows, exclusive opening of files | transition system; invariant over executions |
| C95 | stl/gp/slist.gp.go with GOGP_HasTail | refinement of the plain list plus the invariant that the tail is the last node |
| C96 | unsafe/string.go over a byte-addressed memory with allocation | byte-wise equality; lemmas about writes below, inside and behind a range |
| C97 | math/float.go over binary64 numbers as integer multiples of 2^-1074 with rounding to nearest even | exact threshold of the rounded difference; powers of two |
| C98 | math/rand/rand.go RandSeed, NewRand32, NewRand64; clock readings and addresses are inputs | the seed function is a bijection in each argument; period of the global generator (C41) |
| C99 | math/rand RandMax | the low k bits of a linear congruential generator are one modulo 2^k; divisibility of geometric sums; for other bounds a shorter period would halve to one that flips the top bit only, so the bound would divide it; counting over the full cycle |
| C100 | time/duration.go ParseDuration, with `time.ParseDuration` of the library written out; the floating point product of a fraction is a parameter that is exact below 2^53 | the parser consumes one number with its unit per round; induction over digits |
| C101 | regable/reg.go texts, RegO, GetNoErr, regable.go ShowAllRegs | refinement to the history of calls (as C63) extended by names, limits and order of registration |
| C102 | debug/backtrace.go, debug/assert.go, fs/file_line.go FileLine and Func; the stack of a goroutine is a list of frames with call and return addresses, `runtime.Caller`, `Callers` and `FuncForPC` are written out over it; no inlining | list lemmas |
| C103 | sync/filelock/rwmutex.go | every sequence of returns is an execution |
| C104 | reflect/reflect.go over an inductive type of Go types (values are not modelled) | case analysis, a pointer type is larger than its target |
| C105 | time/duration.go ParseDuration (library, written out) | the parser reads one term per round; induction over the terms and over the digits |
| C106 | stl/gp/lfqueue.gp.go under interleaving (the model of C30) | potential function: own steps, one retry if stale, three steps for every goroutine that may be disturbed |
| C107 | stl/gp/ringbuffer.gp.go MustPush/MustPop under interleaving (the model of C34) | every ticket is held by somebody; counts of goroutines against counts of calls; rank of a goroutine |
| C108 | time/duration.go Days, Weeks and the methods of the Go library behind Seconds, Minutes, Hours; float64 as rationals rounded to 53 bits, ties to even | error of one rounding, monotonicity of rounding; the rounding agrees with the bit-level one of C57 |
| C109 | the float64 arithmetic of time.ParseDuration (scale multiplied by ten digit by digit, product, truncation) as rationals rounded to 53 bits | bounds on the accumulated relative error, digits that do not fit, induction over terms; a counterexample to exact rounding |
| C110 | math/rand/rand.gp_32.go, rand.gp_64.go under interleaving | potential function as for C106; the next step as a function |
| C111 | the interleaving models of C30, C36, C37 and C94 | the next step as a function, shown to be the only step of the model that moves the goroutine |
| C112 | crypto/rsa/code.go Hash, HashString; SHA-512 a parameter with the contract of hash.Hash | induction over the rounds; injectivity of the salted message |
| C113 | stl/sort_slice.gp_int.go, heap.gp_int.go, stack.gp_int.go with slices as windows into arrays and append in place or with a new array | simulation of the list models call by call with a frame condition; induction over histories |
| C114 | fs/file_path.go Hash with the methods NONE (counter passed through the calls) and FINGERPRINT (as a hash function with the contract of hash.Hash) | structural induction over trees |
| C115 | sync/spinrwlock.go with Unlock and RUnlock also called by goroutines that hold nothing | the invariant of C37 on the reader counter; witnesses for the limits |
| C116 | fs/file_line.go Chdir, workPath, WorkPath, RelateWorkPath as a state machine of the process; os.Chdir and os.Getwd are parameters | induction over histories against a specification that follows the paths; relative paths from C84 |
| C117 | stl/tree.gp_int.go with the nodes behind pointers in a heap, nil included | an inductive predicate relates pointers to the value trees of C16; frame lemmas; induction over histories |
| C118 | the visitor of stl/tree.gp_int.go over that heap, edits in between | simulation of the visitor of C16; invariant that the stack holds pointers to nodes |
| C119 | list.gp_int.go with nil and detached nodes, nodes of other lists, a list as its own argument, edits under a visitor | direct computation on the memory of C18, frame lemmas |
| C120 | slist.gp_int.go with nil, nodes inserted twice, a list as its own argument, marks in other lists | periodicity of the chain of next pointers; frame lemmas of C26 |
| C121 | errors.go Reg, Get, ShowAll, one step per access to a package variable, with the RWMutex | invariant over all interleavings, simulation by an atomic list of names |
| C122 | reg.go: values behind identifiers and objects with the RWMutex of each record, one step per access, the store of a value in two steps; Reg without lock | invariant over all interleavings, simulation by an atomic book; a concrete execution for the race |
| C123 | spinlock.go around an arbitrary object whose methods proceed one access to memory at a time; Seq64.Next and IntStack as objects | invariant over all interleavings, simulation by the specification of the object; concrete executions for the negative parts |
| C124 | queue.gp_int.go and deque.gp_int.go in full (Shrink of the queue apart) | refinement of a table (elements, first slot, number of slots) by every history |
| C125 | heap.gp_int.go once more, each function with the list of its comparisons | induction over the loops; the sum of ⌊log₂(n/i)⌋ is at most n; a comparison function that agrees on the listed pairs gives the same result |
| C126 | queue.gp_int.go and deque.gp_int.go as for C124 | invariant of the table of C124 over all histories |
| C127 | queue.gp_int.go and deque.gp_int.go as for C124, with the results of `copy` added up | potential function on the table of C124: slots plus twice the excess of three times the elements over twice the slots |
| C128 | heap.gp_int.go: the object with its slice in the memory of C113; `CheckHeap`, `Reverse` | each call refines the list model of C07-C12 and keeps a frame; Buffer by following where the slice is |
| C129 | sort_slice.gp_int.go `Init`, `Less`, `Swap`, `Sort` in the memory of C113; tree.gp_int.go `SortChildren`; sort.Sort as an arbitrary decision tree over Less and Swap | induction on the decision tree; an element that is never compared is put first by one order and last by another, on which the algorithm behaves alike |
| C130 | lfdeque.gp.go as for C33 | potential function: three steps for every goroutine that a successful compare-and-swap may send back; the next step as a function |
| C131 | file_path.go `Symlink`, `Link`, `Rename`; symlink(2), link(2), rename(2) as relations on a file system with links, for the calls that succeed | induction on how a path is followed; adding an entry keeps what was found, removing one never leads elsewhere |
| C132 | file_path.go `FilePath` with the file system of C131 | fold over the components against following them |
| C133 | file_path.go `Fingerprint`, `Hash`, `Statistic` with paths that the system follows anew in each call, on the file system of C131; a bound on the depth of calls | induction on this bound: what a child path leads to is what the entry leads to; the tree seen then goes through the tree model of C60 and C79; least bound for cycles |
| C134 | sort_slice.gp_int.go, all methods, in memory (C113, C129), panics recovered | each call against a table of results; agreement with the ideal table by induction on the history |
| C135 | fs.go `CollectSubs`, with paths that the system follows anew in each call, on the file system of C131 | induction on the depth below the directory and on the entries; no link is followed below the directory |
| C136 | lfdeque.gp.go, all operations except PushFront, PopBack and Busy, one step per access to shared memory | forward simulation; a producer overtaken by Clear will fail its compare-and-swap; non-linearizability by computing all states the atomic object can be in |
| C137 | list.gp_int.go `Sort`, `mergeSort`, `merge`, with the comparisons recorded | erasure of the record; refinement by a merge sort on lists with bins (a binary counter); potential: each element pays for the index of its bin |
| C138 | ringbuffer.gp.go `Size`, `Empty`, `Cap` among `MustPush` and `MustPop`, one step per access to shared memory | forward simulation on top of that of C34: the first load is the moment for the only popper, the second for the only pusher; counterexamples by schedules |
| C139 | strings/rand.go `Rand` called by any number of goroutines, one step per access to the shared generator | invariant with a ghost list that says who owns each letter; orbit of the generator modulo 4 and a counting argument; counting of alternating strings; a string that only concurrent calls return |
| C140 | mutex.go with processes that own goroutines, mutexes and handles, and a crash step at any point | inductive invariant on top of that of C94: who opened which handle, dead processes are quiet |
| C141 | ini.go on bytes, behind `bufio.Reader` (buffer of 4096 bytes, `fill`, `ReadSlice`, `ReadString`) and an `io.Reader` that answers in pieces; `strings.TrimSpace` with the decoding of runes forwards and backwards | the reader refines the bytes delivered before the first error, by induction on what is left; trimming from the back meets the same runes as from the front (a white-space word starts with a starting byte); then as C55/56; UTF-8 texts by a simulation of Model/Ini |
| C142 | lfqueue.gp.go with every access a step of its own; ringbuffer.gp.go, lfdeque.gp.go and spinlock.go with the location and kind of every access; data that goroutines access while they hold the lock | happens-before as reachability in program order and observed atomics; inductive invariant on the list of accesses so far: what each goroutine knows and what each atomic location passes on; the fine-grained queue refines the machine of C30; races by computing vector clocks of concrete executions |
| C143 | the machines of C36 and C37; Spec/LockHistory reads who holds the lock off the calls and returns | what the history shows about each goroutine is an invariant; discipline in the history is equivalent to discipline in the states, so C36 applies; the spurious panic by induction on the rounds |
| C144 | the machines of C121, C122 and C94 with the location and kind of every access and the operations on the mutexes (proved to be the same machines) | happens-before as reachability in program order and hand-over of mutexes; inductive invariant for any program that accesses each location under its mutex: what the holders know and what the last unlocks pass on; races by executions whose second access is the first action of its goroutine |
| C145 | the machines of C142; Spec/Handover puts calls and returns into the happens-before order, as accesses that nobody observes (proved to be conservative) | inductive invariant with ghost state: for each value put in, the position of its call and who has it now; its call is known to whoever has it and passed on by the location that publishes it |
| C146 | DES, AES and base64 written out (Model/Des, Model/Aes, Model/Base64), put in for the parameters of C49 to C51; outside the proofs the models were compared with OpenSSL on some 300 random keys and blocks | both directions inverse: Feistel rounds undo each other, S-boxes and permutations by finite checks, MixColumns by additivity of multiplication in GF(2^8); induction over blocks |
| C147 | the same models; those parts that need nothing of the cipher are proved for every cipher | every block is encrypted alike (C146), so equalities carry over because encryption is injective; for CBC induction over common blocks; parity bits are left out by the first table of the key schedule |
| C148 | the machine of C34, its counters modulo 2^64, without an assumption on them | inductive invariant counting the pops by `head`; induction over pairs of calls up to 2^64; invariant of the state in which nothing moves |
| C149 | CRC-32 and CRC-64 written out with their tables (Model/Digests), the fingerprint of C52 on top | one bit of the division is injective because the polynomial has a constant term; up to as many bytes as the check has enter it at once, as one number; table of 256 entries by a finite check; pigeonhole |
| C150 | MD5, SHA-1, SHA-256, SHA-512 written out (Model/Digests); outside the proofs compared with Python's hashlib on 40 messages | streaming: induction over the bytes of a block and over blocks; schedules and rounds: induction over rounds against the recurrences of the standards; roots of primes by integer inequalities; the sines of MD5 by 28 terms of the exponential series of i, its powers in integers and a bound of the error |
| C151 | RSA, its padding and the prefixes of hash functions written out (Model/RsaMath), put in for the parameter of C92, with the hash functions of C150; outside the proofs compared with OpenSSL on 5 keys, 20 messages and 6 hash functions | Fermat's little theorem and the Chinese remainder theorem; the two residues put together are the power modulo n; padding is parsed back uniquely |
| C152 | PEM (RFC 7468), DER (X.690), PKCS #1 private keys and PKIX public keys, writing and reading (Model/KeyTexts), put in for the parameter of C151; outside the proofs compared with OpenSSL on 6 keys | lengths and numbers have one form only; reading is the inverse of writing, element by element; the first line that begins a block is found because no dash is in base64 and no line break in a marker |
| C153 | `rsa.GenerateKey` and `rand.Prime` (Model/RsaGen): masks on the random bytes, the sieve, the retries, with a bound on the number of rounds as an argument; the test of primes is a parameter that is assumed exact | bounds on the candidate from bounds on its first bytes; a prime survives the sieve because a small prime that divides it is it; two numbers with the highest two bits set have a product of full length; induction on the rounds |
| C154 | `sort.Sort` of Go 1.6 to 1.18 (Model/GoSort): `quickSort`, `doPivot`, `medianOfThree`, `heapSort`, `siftDown`, `insertionSort`, `maxDepth`, as a decision tree; loops with moving bounds get a bound on their rounds that is proved to be enough | the elements as a function of the index, permutations of a range; loop invariants of partition, heap and insertion; bounds of indices and comparisons for every sequence of answers by induction on the loops; a rank that makes elements different shows stability |
| C155 | as C75; the text is read back by a specification of its own (whole number, point, three digits, unit) | rounding is monotone, also across powers of two, so the number of units is monotone within a unit; at most 1024.000 of a unit and at least 1.000 of the next |
| C156 | `MkdirAll`, `Mkdir`, `Stat`, `Lstat` (Model/FsDirs) on the file systems with links of C131; `os.MkdirAll` written out, with its cutting of the path text | induction over the names at the end of the path: the call for the path above has made exactly the missing part |
| C157 | `RemoveAll`, `Remove` (Model/FsDirs): `os.RemoveAll` of Go before 1.12 written out; the order of listing is a parameter; depth bounded by the tree | induction over the depth; during the loop the way to the directory stays, since it does not use what is removed |
| C158 | `Abs` (Model/FsDirs): `filepath.Abs` written out, the text of the working directory is a parameter | the form of a path (C88); going up from a place is cutting its names |
| C159 | `Match` (Model/Match): `filepath.Match` written out on bytes with `scanChunk`, `matchChunk`, `getEsc` | the grammar as inductive predicates; well-formed patterns are cut at their stars; the first place where a chunk matches is good enough: a slash in the difference would lie, by descent, before the later place |
| C160 | `EvalSymlinks` (Model/EvalLinks): `walkSymlinks` of the Go library written out, with its limit of steps | the path so far leads without links to its lexical place, and the rest leads on from there to the same places (invariant of the loop); termination by induction on how the path leads |
| C161 | `SplitList` (Model/PathList): `filepath.SplitList` on Unix written out; `FilePath` as in C82 | splitting and joining are inverse; a colon joins two components to one that is neither `.` nor `..`; the normal form of C82 |
| C162 | `Chdir` and `WorkPath` as steps of goroutines with their accesses to `gWorkPath` (Model/WorkDirConc) on the process of C116 | invariant by the number of calls begun and ended and the place of the one goroutine inside; the directories of the past for all executions; witnesses for the stale path and the race |
| C163 | `RelateFileLine` (Model/RelFileLine) on the stacks of C102 and the Go path of C90 | from C84 and C90; exact result where it is false |
| C164 | `Clear`, `Init`, `Empty`, `Begin`, `End` and a client's loop (Model/RBTree) on the tree of C69 | the invariant of C69 without the number of nodes ever made; keys in order by induction on the history; the loop by induction on the nodes that are left |
| C165 | file_path.go `Create`, `Open`, `OpenFile` (Model/FsOpen) on the file systems with links of C131, with a content per inode; open(2) as a function with the flags `O_CREATE`, `O_EXCL`, `O_TRUNC` and writing | induction on how the path is followed to the place where a file is made; it agrees with following the path once the file is there |
| C166 | file_path.go `Truncate` (Model/FsOpen) on the same | cases of the call; content by index |
| C167 | the calls of C131, C156, C157, C165 and C166 one after another (Model/FsHistory), from any working directories | invariant and monotonicity of each call; induction over the history, over the calls inside MkdirAll and over the depth of RemoveAll |
| C168 | `Copys` (Model/IoCopy) with a file of `Create` (Model/FsOpen) as its writer (Model/FileCopy); a disk with limited room | the file meets the contract of C66; invariants of the writer through the loop: only this file changes, content and room add up |

## 5. Where the code does not do what the property says

Found while proving; each line is backed by the theorems listed for the property in `MANIFEST.json`.

* **C02** — False of the code: growth while the data does not start at index 0 overwrites elements. Proved exact for all other histories; the corruption is characterised.
* **C04** — False of the code for wrapped buffers; proved for unwrapped ones, exact result for wrapped ones.
* **C05** — False of the code: the push that fills a buffer with head != 0 empties the queue. Proved exact for all other histories.
* **C06** — False of the code whenever Shrink acts on two or more elements; proved otherwise.
* **C100** — True below one day (negative durations included); false for every duration of a day or more, whose text is refused because the library knows no unit d.
* **C101** — ShowAllRegs is proved in full within the limits; the text of a single value always shows registrar 0 (C101_registrar_false), and invalid identifiers panic instead of being shown as invalid (C101_unregistered_false).
* **C102** — Bt, Caller, FileLine and Func are proved in full. Lists stop after 50 frames and name the line behind the call; the exported depth BtMe means different frames to CallStackInfo and CallStackList.
* **C103** — False: all methods are empty. Proved for every path and every history.
* **C104** — IsSameType is proved in full. New gives a pointer to the type for every sample, never the type; defined types and uintptr are never accepted as comparable; nil panics.
* **C108** — Exactness on whole units, accuracy and monotonicity hold for all durations. Distinctness holds exactly up to 2^23 seconds, 2^17 minutes, 2^11 hours, 64 days and 8 weeks; in every whole unit beyond, two durations have the same number (C108_collide_false), and from 209 days on one nanosecond short of k days or weeks gives k.
* **C109** — With the float64 arithmetic of the library written out: every term is met up to 1/30 ns above and 1 1/30 ns below, exactly for whole nanoseconds written without superfluous digits. Rounding down exactly is false: 0.50000000000000us is read as 499 ns.
* **C116** — RelateWorkPath is correct for absolute paths only; of a relative path it is always ".". os.Chdir and os.Getwd are parameters with the contract of their documentation.
* **C119** — The parts named in the statement are false of the code; the exact behaviour is proved for each.
* **C12** — False of the code for the empty slice, which panics; proved for every non-empty slice.
* **C131** — False of the code for Symlink of a relative path with a directory in it: the link holds the path as it is, which counts from the directory of the link. Exact behaviour proved. The system calls symlink, link and rename are modelled where they succeed.
* **C132** — False when .. follows a symbolic link, since FilePath removes both; proved when the text has no .. and when the file system has no symbolic links.
* **C133** — Proved where the tree seen is finite. False of the code otherwise: below a directory that a link leads back to, the calls never end (a system that limits the links on a path ends them with an error), and one link that leads nowhere makes Fingerprint and Hash of all directories above fail. With links the size of Statistic differs from that of Fingerprint.
* **C135** — Proved for every path that leads to the same directory as the path object made from it (every path without .., every path in a file system without links). False with .. after a symbolic link: sub-directories are then looked for elsewhere, and listed as empty without an error.
* **C138** — Proved for goroutines that are the only one to push or the only one to pop; false of the code for anybody else, with the exact range of what Size can report. Fewer than 2^64 calls, fewer than 2^63 slots.
* **C139** — False of the code as to the variety: the lowest bit of the generator alternates and 26 is even. The rest is proved in full.
* **C14** — False of the code: Insert at an existing position overwrites, Pop of an empty slice panics. Proved for all other histories.
* **C141** — False of the code: a byte order mark hides the header in the first line, and an error of reading is not reported (New gives what was read before it). The rest is proved in full.
* **C142** — False of the deque beyond one goroutine on each side and with Clear (executions with races are given); proved in full for the queue, the ring buffer (counters below 2^64) and the spin lock. What happens-before means is Spec/Race; that race-free programs behave sequentially consistently is the promise of the Go memory model.
* **C143** — False of the code: Lock panics supposing a deadlock where there is none (the execution is given), and readers and writers of the reader-writer lock overlap. The rest is proved in full.
* **C144** — False of ShowAll of the error registry and of concurrent registration (executions with races are given); proved in full otherwise. What happens-before means for mutexes is Spec/LockRace; that race-free programs behave sequentially consistently is the promise of the Go memory model.
* **C145** — False of the deque with two goroutines that pop (the execution is given); proved in full for the list, the ring buffer (counters below 2^64), the deque between one producer and one consumer, and the spin lock.
* **C147** — Mostly false of the code, which uses a fixed initialization vector that is the key and no chaining for triple DES: the theorems say exactly what is given away. Computational hardness of DES and AES is not expressed.
* **C148** — False of the code once the 64-bit ticket counters run over: the executions are given (for buffers of every power-of-two size, also those that Init never makes). Up to there it is proved in full, which discharges the assumption on the counters in C34, C142 and C145 for histories with fewer calls.
* **C157** — os.RemoveAll is written out as before Go 1.12, which follows the path anew for every file. Proved if the way to the directory does not pass through what is removed; C157_through_itself_false is a path for which it reports success and leaves files behind.
* **C158** — Proved for texts of the working directory without symbolic links; os.Getwd returns the environment variable PWD if it leads to the working directory, which may pass through a link, and then it is false (C158_link_false).
* **C159** — filepath.Match is written out from the Go library. That every match is found is proved for names in ASCII and patterns in which no class takes a slash (C159_exact_partial), and false without (C159_greedy_false, C159_bytes_false).
* **C160** — filepath.EvalSymlinks is written out as before Go 1.8. That the path leads to where the result does is proved if that is a directory or no text of a symbolic link ends with a slash, and false without (C160_slash_false); the limit of steps also refuses deep paths without links (C160_limit_false).
* **C161** — Unix. FilePath cleans the list as if it were a single path: that the paths come out as they were is proved for lists in which no path after the first starts with ../.. and the last of several is not the root, and false otherwise (C161_up_false, C161_root_false).
* **C162** — Chdir changes the directory, asks for its path and stores that in three steps without a lock: that WorkPath is the working directory is proved for calls of Chdir that do not overlap and do not panic (C162_workpath_partial), and false with overlapping calls (C162_stale_false). os.Chdir, os.Getwd and the access to the string are one step each.
* **C163** — Unix; filepath.Rel is a parameter with its documented contract. The error of Rel is dropped, so that the name is a dot when one of the two paths is absolute and the other is not (C163_file_false, C163_env_false).
* **C164** — The template as if compiled, as in C69; insertions are those of insertEqual, since the exported Insert does nothing. The loop from Begin to End ends on every tree that is not empty and never on an empty one (C164_walk_empty_false).
* **C17** — False of the code: AddChild at an existing index replaces the child. Proved for appending, removal and ranges.
* **C21** — False of the code for every list and mark: the backward link of the following node is never set. Proved: the forward direction and everything else.
* **C22** — False of the code when the first node is involved; proved for all other cases and the wrong results characterised.
* **C23** — False of the code for two or more nodes: only the old first node remains.
* **C24** — False of the code unless one list is empty or other has one node; exact result proved.
* **C25** — False of the code: only the first node is recognised.
* **C27** — False of the code: Empty is inverted, Len is always 0, the visitor Next always returns false; proved for all lists. The position of the visitor is right.
* **C28** — False of the code: panics on acyclic chains of length 2 or 3 modulo 4, never returns on even cycles; exact behaviour proved for every chain.
* **C29** — False of the code: Sort panics on every list of two or more elements. Its merging step is right (stable merge of two sorted lists).
* **C31** — False of the code: Size counts PopFront calls on the empty list and ignores Clear; exact formula proved.
* **C33** — False of the code: PushFront panics on every new deque, concurrent producers lose values, concurrent consumers can return a value twice. Proved: one producer and one consumer are linearizable; exact behaviour of PushFront and PopBack.
* **C35** — False of the code: Init always makes one slot (or never returns above 2^62), Push always reports false and overwrites, Pop always reports true. Proved exactly, and FIFO order for disciplined single-threaded use.
* **C37** — False of the code: a reader that checked the counter before the writer announced itself gets in. Proved: writers exclude each other, and readers that arrive while a writer holds the lock wait.
* **C38** — False of the code: the inner lock taken by the first reader is never released, so after one RLock/RUnlock no writer ever succeeds, and a goroutine alone never gets a read lock again either. Proved for histories without RLock.
* **C40** — False of the code when the bounds span the whole type (length wraps to 0 and the call panics) and for RandMax(0); proved for all other bounds, with exact range (every value occurs).
* **C42** — False of the code: every error return is commented out, so nothing is checked. Proved: exact behaviour for all histories, and the range invariant for callers that check themselves.
* **C43** — False of the code: the maximum is never enforced and ids wrap at 2^64. Proved: exact ids for all histories, ascending and distinct while they fit in 64 bits.
* **C45** — The table is proved complete and correct. IsPrime is false of the code for composites coprime to 6 (its bound is the constant 0): exact behaviour proved for every input.
* **C48** — False of the code for block sizes above 255 (the count does not fit into a byte) and panics for sizes below 1; proved for 1 to 255, exact behaviour for all sizes.
* **C49** — False of the code for data ending in zero bytes. DES is a parameter: any cipher with 8-byte blocks whose two directions are inverse; C146 writes it out.
* **C51** — False of the code for strings ending in zero bytes (zero padding). base64 is a parameter with decode(encode b) = b, written out in C146; hex is modelled.
* **C53** — False of the code: Reset keeps the byte count, Size is the byte count, Sum ignores its argument. Exact behaviour proved.
* **C54** — Proved for one goroutine and up to 2^32 objects; false after wrap-around and under concurrent creation (gId++ is not atomic).
* **C59** — False of the code: no error is ever reported, because of shadowed variables. Exact behaviour proved.
* **C61** — False of the code: relative paths panic, absolute ones lose the root. Exact behaviour proved for every text on Unix.
* **C62** — Proved for every registration made after program start; false for the package own ERRID_STD, whose text is overwritten by init.
* **C63** — Proved within 255 registrars and 2^24-1 values each; the code does not enforce these limits, and beyond them the property is false.
* **C64** — False of the code: every access to an unregistered id panics (index out of range), and no limit is enforced. Exact behaviour proved.
* **C66** — Proved for sources read chunk by chunk and at least one writer; false with no writer, and for sources with a WriteTo method and two or more writers (only the first gets data).
* **C68** — Length and alphabet proved; the rule argument is ignored by the code.
* **C69** — Proved for every history of insertEqual (order, completeness, stability, next, prev, Find). False of the exported Insert (a stub), of insertUnique (exactly which nodes it loses is proved for every tree), and of prev from End (right exactly if the first node is the root). The template is commented out in the source.
* **C70** — False of the code: AddCreater is a stub.
* **C71** — PopHeap of a heap is proved. False of the template for MakeHeap and SortHeap: MakeHeap makes a heap of every slice up to three elements and fails for some slice of every greater length, for every order with four values; SortHeap sorts up to four elements and fails for some slice of every greater length. Proved for all slices: both keep the elements, and the first element after MakeHeap is the top.
* **C72** — The contents are right; false of the code: other is not emptied and shares all nodes.
* **C73** — False of the code: only the first node is recognised.
* **C74** — False of the code: append writes the padding into the array behind the slice when there is room. Exact effect proved.
* **C75** — Accuracy proved for all sizes; false that the number stays below 1024: just below the next unit it is printed as 1024.000 (exactly characterised).
* **C76** — The values agree; Id() of an object lacks the registrar and is never the identifier.
* **C77** — False of the code: a directory with one 51-byte file and the file with its fingerprint as content have the same fingerprint, as have an empty file and an empty directory. C77_same_partial: this is the only exception; without such files, and below 2^48 bytes, equal fingerprints mean equal trees up to names and order unless two of the hashed byte strings collide.
* **C78** — True for opening and listing; false for reading: the error of io.Copy is dropped.
* **C80** — False of the code: rebalence does nothing. Exact shape proved for every history of insertions (plain search tree, all nodes red) and the exact number of nodes visited by Find and an insertion; increasing keys give a list.
* **C84** — False of the code when one path is absolute and the other is not: the error is dropped and "." is returned. filepath.Rel is a parameter with its documented contract.
* **C85** — False of the code for absolute names on Unix: they are taken from the directory of the path as well. Exact target proved.
* **C86** — False of the code: Move applies the directory twice, Copy is a stub. Exact target proved for every absolute path.
* **C87** — One direction holds; the other is false for every path but the root.
* **C89** — False of the code: Create recurses for ever if the path opens and otherwise does nothing and reports success. Nothing of the property holds.
* **C90** — Right for one entry; the list is split at semicolons, so with several entries on Unix it is wrong.
* **C92** — All but one clause proved; false: a public key of another kind makes NewClient panic. The Go library is a parameter with a stated contract. GenRsaKeys does not compile as written; the model takes its evident meaning.
* **C93** — All but the last clause proved; StdErr uses the wrapped text as a format, so percent signs are lost.
* **C94** — Exclusion proved for every schedule. Waiting is false: on Windows a busy file is an error; were it the awaited error, a waiting Lock on the same mutex would block Unlock for ever.
* **C95** — Proved for every history without five kinds of calls; for each of them it is false of the code (Remove, InsertAfter and the others do not maintain the tail) and the exact effect is proved.
* **C96** — Everything is proved except that Writeable is complete: memory of global variables may be written but Writeable says no (C96_writeable_false). Strings obtained by BytesString change with the slice (C96_immutable_false).
* **C97** — The exact threshold and symmetry are proved; reflexivity fails for infinities and NaN, transitivity fails everywhere (C97_inf_false, C97_transitive_false).
* **C98** — Proved while the clock reading stands still; two readings that differ by one particular amount give the same seed (C98_moving_clock_false, exact). All 64-bit generators run through one sequence (C98_one_sequence).
* **C99** — True exactly for bounds that are no power of two. For powers of two the exact period is 2^k (64 bit) or 2^(k-1) (32 bit). C99_frequency: over one period of the 64-bit generator every number below any bound occurs equally often up to one.

Also seen: `fs/file_path.go` does not compile as it is (`root.Size` for a field of the value, a sort slice with another name);
`regable` and `math/seq` import paths of an older layout; `crypto/rsa/rsa.go` returns `""` where a byte slice is due.  The
models follow what is evidently meant there, and the definitions say so.  `stl/gp/rbtree.gp.go` is commented out as a whole.

## 6. Not modelled

* One-line adapters to the standard library in `path` and `fs` (`TempDir`, `Chmod`, `Chown`, `Chtimes`, `NewFile` and the like).
* `time.RDTSC`, `time.Clock` (cgo), `RuntimeNow`: the clock is a parameter wherever it is used.
* `proto/integer.go` (does not type-check: returns `int32` for `int64`, names an undeclared type).
* Files that declare only types, constants or functions without a body: `stl/bit_set.go`, `stl/gp/bstree.gp.go` (every method
  returns nil), `math/big_int.go`, `math/cplx`, `proto/any.go`, `regable/gp/{factory,regist}.gp.go`, `math/number/gp`,
  `time/time_sys.go`, `tasks`, `event`, `log`, `db`, `pool`, `action`, and one-line files (`net`, `os`, `rpc`, `script`, `convert`, `encoding` other than `ini`).
* `SeqNext64` uses `async.AutoLock`, a type that is not in the repository; it is modelled as a lock that waits (C123).

The templates `stl/gp/{queue,deque,stack,sort_slice,heap,list,tree,functorcmp}.gp.go` and `regable/gp/mapping.gp.go` are modelled
with an arbitrary element type, and the generated `int` instances are the same text apart from the type; where a template has a
variant the instance does not use (heap in STL mode, C71), the variant is modelled separately.
