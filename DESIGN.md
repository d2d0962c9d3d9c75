# Formal model of bachan/coda in Lean 4

## 1. Approach

`/repo/coda` is a collection of small C and C++ libraries.  Each file that has
semantic content is modelled by a Lean module `Verif/<Unit>/…` made of

* `Model.lean` – the code, function by function, with a citation of the
  modelled lines on every definition;
* `Spec.lean` – a small specification written without any of the model's
  helpers (arithmetic on lists, splits, spans, abstract maps, …);
* `Lemmas.lean` – proof machinery;
* `Props.lean` – the property theorems, each followed by an `example` which
  shows that a concrete non-trivial case meets its hypotheses.

`Verif/Mem.lean` fixes the memory discipline.  A computation returns
`Res α = ok a | ub`; a buffer is a `List UInt8` and every read (`rd`) or write
(`wr`) outside of it yields `ub`.  Undefined behaviour is therefore a
distinct outcome, and "never touches memory outside the buffer" is the theorem
that the result is `ok` when the buffer is *exactly* as long as the contract
says.

Loops are modelled by structural recursion on the remaining input or by
well-founded recursion on the loop counter.  Loops whose termination is itself a
claim use fuel together with a theorem that enough fuel exists.

Concurrency (semaphores, mutexes, condition variables, pid files, shared memory)
is modelled by a labelled transition system: a state holds the shared state
and the program counter of every process; a step is one atomic action (a system
call or a shared memory access) of one process, or a crash of one process.
Theorems quantify over all reachable states, with unboundedly many processes.

Calls out of the code (malloc, system calls, clock, random numbers, the
formatting part of printf, std::string, std::map, std::tr1::unordered_map) are
parameters, oracles or idealised containers, as said at the definitions.

## 2. Plan per property

The column "method" is the proof idea; status lives in `MANIFEST.json`.

| id | what is modelled | method |
|----|------------------|--------|
| C01 | `coda_base64_encode/decode` on byte lists, output cursor and remaining room | induction over 3-byte groups; digit arithmetic |
| C02 | same | equality with an independent arithmetic RFC 4648 spec |
| C03 | same, output buffer with frame | invariant: written prefix ++ untouched rest |
| C04 | `coda_base64_encode_alloc`, size_t arithmetic modulo 2^64 | omega |
| C05 | decode + 256-entry table | table theorem (all 256 entries) + induction over quads |
| C06 | decode with room | same induction with room as parameter |
| C07 | `coda_base64_decode_alloc`, malloc as oracle | from C05/C06 and a length bound |
| C08 | as C01/C05 | from round trip and quad arithmetic |
| C09, C10 | web64 functions | same generic quad lemmas, other tables |
| C11 | `coda_base58_encode` with int indices, scratch buffer bounds-checked | value invariant: buffer denotes number of consumed prefix; `256^n ≤ 58^(138n/100+1)` |
| C12, C13 | encode and decode | uniqueness of positional numerals |
| C14 | decode return value | loop invariant; refuted for first character, partial |
| C15 | alloc functions | size inequality, frame lemma |
| C16 | encode_alloc result | refuted by witness; upper bound proved (partial) |
| C17, C18, C21 | string versions of urlenc/urldec | induction over the string |
| C19, C20 | char* versions with bounds-checked memory (and aliased memory) | induction, cursor invariant |
| C22–C24, C108, C109 | escape/unescape/preunescape with signed char and size_t wrap; relations "text stands for bytes" | induction; refutations for the broken regions |
| C25–C27 | parser loops over buffers, map as association function | induction vs. split-based spec |
| C28–C32 | string.c with bounds-checked reads | induction on length; refutation of rev*spn |
| C33 | atou/atoi with wrap | induction; digits round trip |
| C34–C39 | string.cpp, easy_parsing.cpp | induction vs. split/words specs |
| C40–C44 | cache as map + explicit heap doubly linked list | representation invariant by induction over operations; refinement |
| C45–C50 | arrays, chain table, free stack in shared memory | representation invariant; refinement to bounded finite map |
| C51 | SysV semaphore pair with SEM_UNDO, N processes, crash | inductive invariant |
| C52 | step-wise insert/erase with a crash point | read-atomicity theorem, refutation of full property |
| C53 | attach functions on header words | case analysis |
| C54–C57 | ring, semaphore, lock, N processes | inductive invariant with ghost history |
| C58–C60, C84, C85 | mutex/condvar machine, N threads, exceptions | inductive invariant with ghost history; refutations for C84, C85 |
| C81 | semaphore creation by concurrent first connects | refuted by schedules; partial |
| C82, C83 | queue with interrupted semop / kills | refuted by schedules; partial invariants |
| C61–C63 | gmtime on Int/BitVec | era arithmetic, omega; refutation for struct tm conventions |
| C64 | log_array | log2 lemma |
| C65 | inet_addr with wrap | grammar induction; refutations |
| C86 | coda_msleep | case analysis |
| C66 | log_levels | case analysis |
| C67 | mkpath with file system oracle | induction over path |
| C68 | mkpidf as transition system over inodes | inductive invariant |
| C69, C70 | descriptor tables, syscall outcomes as oracle | case analysis |
| C87 | mkpath on read-only memory | induction over path |
| C88, C89, C90, C91 | descriptor tables, syscall outcomes as oracle | case analysis |
| C92 | option events | induction |
| C93 | dispositions and flags | induction over signals |
| C94, C95, C96 | recv outcomes, timeval, value trees | induction, cases |
| C71–C73 | remove tones on byte lists | induction, table |
| C74–C76 | storage trie with 4096-byte blocks | invariant; refutation with witness |
| C77, C78, C79 | url parser on the bytes of its blocks; a separate specification of the text (split, follow, join) | loop invariants relating the block to the specification; refutations by evaluation |
| C80 | objects and a heap of blocks | invariant: every live block belongs to exactly one object; refutation |
| C97, C98 | create_relative with any parent that a chain of creations can make | from the lemmas for C77–C79; induction over the chain |
| C99, C100 | trees of members and the stack of levels; documents as trees, loaded by a separate recursive specification | a machine that loads a member is simulated by the machine that loads its object, with the levels of the outer object in front; induction over the document; refutations by evaluation |
| C101, C104 | the read loop with any XML parser and any point of failure; the length conversions | induction over the loop; arithmetic |
| C102, C103 | strtol, strtoul and strncasecmp on texts; a separate relation "the text begins with the number n" | induction over texts; arithmetic |
| C105, C106, C107 | the whole queue class, call by call, with segments as bytes and failing system calls; a separate specification by lists | simulation by induction over the history; concrete and general counterexamples |
| C110 | layout and required_space with uint32_t, int and size_t | arithmetic; refutation for all maps with a multiple of 4 GiB of nodes |
| C111, C112, C114 | handles, segments and semaphores by key; every call of the class on any handle | simulation by one finite map per key; refutations in every reachable state |
| C113 | the number of mappings of each segment | invariant over all histories; monotone in every step (refutation) |
| C115 | attach as a list of writes, cut at any point | each crash point is classified; refutations for all parameters |
| C116 | the lock system of C51 with interrupted semop calls | reduction to C51; refutations from every reachable state; invariant of the jammed states |
| C117 | every operation as a program of single reads and writes of shared memory, run by any number of processes under the lock; kills | simulation by the atomic map (calls, effects at one instant, returns, kills): relation between the place of each process and the abstract map, kept by every step |
| C118 | the same system | a bound on the remaining steps of a process in its critical section; construction of a schedule that lets everybody leave; invariant of an endless loop for the refutation |
| C119 | the same system | refutation by a round that can be repeated: two overlapping readers, one waiting writer |
| C120 | printf for the directives in use, log_fmt, log_err, thread names, levels | a reader of lines as specification; induction over histories; formats compose |
| C121 | the same | fixed-width decimal numbers are ordered as text |
| C122 | vsnprintf into the object, what as C string | the same printf |
| C123 | threads as stacks of log calls with the two locks, signals at every step | invariant on lock owners, progress, a measure; refutation by an invariant of the stuck state |
| C124 | coda_daemon_load composed of the models of C68, C89, C93; both processes after the fork | case analysis over all outcomes |
| C125 | statements and the expansion of the macro | case analysis |
| C126 | sections of a client as calls of C117 that return all results | corollaries of the refinement of C117: the results of a section are those of one finite map |
| C127 | the loop with an iterator as a program of single reads, in turns with the processes of C117 | under the read lock the memory does not change: invariant on the rest of the run; refutation by schedules |
| C128 | A message class is a type with size, bytes and a partial reader; box::put/get, queue::put/get on lists of bytes | Induction over the list of messages: the box is the concatenation of the bytes, filled up with zeros; refutations for all classes |
| C129 | connect step by step (semget, SETVAL, lock, shmget, memset, parameters, unlock) in any number of processes; users' operations are arbitrary changes of the memory between lock and unlock | inductive invariant over six stages of the making of a queue; refutations for all parameters |
| C130 | the same with kills; SEM_UNDO | the invariant of C129 holds for kills at all but four places, and connect is computed from each stage; at the four places an invariant over all continuations |
| C131 | stringstorage.c with the blocks of the heap that are allocated; string_storage_free | an invariant that says who owns which block, as a permutation of the list of allocated blocks; simulation of the model of C75; second free and use after free refuted for every storage |
| C132 | the same with a list that says which calls of calloc and realloc fail | calls that allocate nothing do not read the list; witnesses for the calls that do |
| C133 | set of the cache with an exception at the insertion or at the assignment, on top of the model of the cache | refinement of the specification with an entry for each failed assignment; refuted in general |
| C134 | a process with masks, pending signals, actions and a stack of handlers; steps of the environment, the kernel, the handlers and the main program | invariants over all runs; the mask of the main program is that of the bottom of the stack |
| C135 | the same with the main loop and a call that blocks, is interrupted or started again | invariants from the delivery on; potential for the number of calls left; refuted in general |
| C136 | the calls of the queue with flags, times, arrivals during a wait, and exits with undo | simulation by the specification of C105 extended with waiting; an invariant of the dead queue over all continuations |
| C137 | `get` as it returns a pointer, and following it later | each call keeps the node of the key (same address) or frees it, and addresses are never used again; induction over the history after the get. |
| C138 | `dbg` as a walk along the links | by the representation invariant of Verif.Cache the walk gives the contents in order. |
| C139 | two caches in one memory, the copy as the compiler makes it | a copy that is only read is proved; the rest is refuted for all histories. |
| C140 | `set` with a reference into a node of the cache, read when the code reads it | the links change, the values do not, until the value is copied; then the refinement of C40 |
| C141 | processes with threads, descriptors, files as lists of writes; each system call of log_create is a step; renames | invariant: descriptor 2 is always open, a thread inside fprintf holds the lock; induction over runs gives the order of writes; concrete runs for the refutations |
| C142 | as for C141 | invariant along a run with one caller of log_create: the file that descriptor 2 refers to before and after dup2; concrete run and a general refutation for a failing close |
| C143 | argv, the state of getopt_long (optind, the place inside a bundle, the gathered operands), the tables and the loop of coda_getopt_parse | induction over the items of a command line, with the four parts of argv (options, operands, options behind them, rest) as invariant; every command line is such a list of items or has a first mistake |
| C144 | as for C143, two calls in a row | the state the first call leaves is the start of a parse of its operands; concrete and general refutations |
| C145 | the ring of C54 joined with the message layer of C57: each process has a current box, put and get move in it, flush and unflush are the steps of the ring | invariants for each writer (sent = flushed boxes and current box) and each reader (got = parts of the delivered boxes), joined over the order of the ring: existence of a list of ways (sender, receiver, message) |
| C146 | as for C152, without the roles | proved for processes that write, flush, and then read (invariant for each phase); concrete refutations: reading and then writing, reading without a flush, a class that reads zero bytes |
| C147 | ftok of glibc on device and number of a file; all histories of calls on queues and maps with files in place of keys (Verif.Keys over Verif.QueueApi and Verif.MapApi) | the keys agree exactly if the low bits agree; noninterference: the world cut down to the handles and keys of one group makes the same steps, the others do not change it; refuted for files that clash, pigeonhole for 65537 files |
| C148 | the two semaphores of one key as the other class sees them, after any specified history | refuted with the simulations of C105 and C111: the values between calls make the other class wait |
| C149 | copies of map objects as copies of the handle, over the class of C111 | simulation as for C111: since nothing is ever unmapped, a copied handle is in the same relation |
| C150 | fork between calls in the schedules of C145: the child gets a copy of the current box | runs with forks after a flush are runs of processes that were there from the beginning; witnesses for the others |
| C151 | objects with their memory and mappings, implicit copies, in one process | invariant: connected objects own different blocks and mappings, and every block is owned; refuted from every reachable state with a connected object |
| C152 | Verif.QueueMsg with kills between any two accesses (the kernel undoes semaphore 0) | invariants of writers and readers that may be dead, over C83_killed; refuted by kills inside of the memset and between start++ and the modulo |
| C153 | put and flush with an oracle for each call of serialize (bytes written, result), boxes of Verif.VarBox | induction over the calls with the messages in the flushed boxes and in the current one; refuted for all classes if serialize writes before it refuses |
| C154 | set_register, get_register and other sections step by step, semaphore 0 with SEM_UNDO, EINTR, SEMVMX | linearization: the trace with the accesses is sequential; no deadlock from the sum of the value and the adjustments |
| C155 | the handles of any number of processes with boxes of messages of different sizes, over the ring with kills | invariants of writers and readers, FIFO of the ring, reading as a relation that any objects follow |
| C156 | the base58 functions over a heap of blocks in which any request may fail | case analysis over the failing requests, on top of the lemmas of C11–C15 |
| C157 | the public lock functions as calls that begin and return, each process with a list of what it holds, on the semaphores of Verif.RwLock | invariant: the semaphores count what is held; a process that waits for itself keeps its locks in every continuation |
| C158 | the same with fork, whose child has no SEM_UNDO adjustments | the same invariant with a number of reads that nobody holds; concrete histories for the refutations |
| C159 | the transition system of Verif.Synque with cancellation requests and threads that end | without a cancelled wait the calls are an execution of Verif.Synque; after one the state is stuck, an invariant of every continuation |
| C160 | both functions over a stream of bytes with a kernel that cuts, interrupts and fails as it likes | invariant: received bytes and bytes under way are the bytes told to be sent |
| C161 | the writes of Verif.ShmMap with values of any number of words, copied in any order | a cut in the stores is a cut in the writes of an insert of a mixed value; refutation for all reachable states |
| C162 | Verif.MapSys with one step per word of a value that is read or written | simulation: the system with words refines Verif.MapSys, C117 carries over |
| C163 | Verif.QueueThreads: one queue object and any number of threads, one step per access to the box and to its position, with or without a mutex of the program | refinement of the object used by one thread, invariants of sent boxes; general refutations without the mutex |
| C164 | Verif.MapThreads: Verif.MapSys with threads that belong to processes; semaphore adjustments per process | simulation by Verif.MapSys (the end of a process is a sequence of ends), invariant: the adjustments of a process are the sum over its threads; refutation for threads that end alone |
| C165 | Verif.IpcRm: sets of semaphores with generations, removed at any moment; processes of the map | invariant per generation (values of the existing set = processes inside with it); refutation from every reachable state with a writer inside |
| C166 | Verif.IpcRm: the lock of the queue, whose failures are ignored, and its boxes with the count per generation | invariant; refinement of a queue that lags by the number of uncounted boxes; refutations |
| C167 | Verif.PoolSys: allocate and free access by access in any number of processes | invariant: how far the call of the mutex holder has come from a state of the sequential pool; refutations by schedules from every reachable pool |
| C168 | Verif.RandomSys: coda_random_init access by access in any number of threads | invariants on the flag, the seeds and the threads inside; refutation by a schedule for every generator |
| C169 | Verif.CacheMove: any number of caches over one memory with the members that the compiler makes | refinement of a store of values; ownership of nodes; refutation from every allowed program |
| C170 | Verif.CacheMove, copy assignment | as C169, with copies as snapshots that are only read |
| C171 | Verif.UrlMem, model of UrlParser with an outcome for every malloc | runs of values in which malloc fails only where nothing is stored: the invariant of C80; NULL as a block without bytes: every write is undefined |
| C172 | Verif.MapWeak, MapSys with a view of the memory for every process and stores on their way to the others | simulation by MapSys: the common memory is every view with its stores on their way; stores to different words commute; nothing is on its way to a process inside of a section |
| C173 | Verif.QueueWeak, the same for ShmQueue | the same, with the lock invariant for kills anywhere; an interrupted lock as a counterexample |
| C174 | Verif.SegRm: Verif.MapApi with a generation for every key file; connect has a key for the semaphores and a segment of its generation | simulation by the history with renamed key files, which C111 covers; the refutation after any history |
| C175 | Verif.QueueSegRm: the same for Verif.QueueApi | simulation by the history with renamed key files, as long as the count of boxes is that of the current segment; the refutations after any history |
| C176 | Verif.MapSys as for C117 | the invariant of the semaphores gives their values when nobody writes; the semop of a reader then succeeds |
| C177 | Verif.UrlWide: the creation of URLs with val_len in 32 bits | equal to the model without bound for smaller sizes; above, the scheme and the rest modulo 2^32 decide |
| C178 | Verif.UrlWide: copies with the size of the block in 32 bits | the block holds both strings if the sum fits; otherwise it ends inside of the text |
| C179 | Verif.MapThrow: calls one after the other with semaphores, adjustments and the writes up to the assignment | the representation of Verif.ShmMap with lost entries; the state of the semaphores after an exception is an invariant of all later calls |
| C180 | Verif.FileMap: files, mappings with their copied pages, accesses | simulation of a world of bytes without pages, for all histories; refutations for all files and sizes |
| C181 | Verif.MapIter: the loop without the lock, step by step, with the stores of inserts | invariant: chains only grow at their ends, after every store; what the loop has visited at each place; a measure of its steps |
| C182 | Verif.MapPeek: the loads of unprotected_read, one at a time, between the steps of all calls | invariant: what the call has passed of a chain that only grows at its end; and, for all histories: every index in the segment is that of a node or none |
| C183 | Verif.LogHist: cells with or without a value, the increment of each type, over Verif.LogArray | induction on the values: every cell holds the count of its bucket |
| C184 | Verif.WeakPeek: the loads of unprotected_read on the view of its process in Verif.MapWeak | invariant: the stores on their way to the reader, in order, each let the map grow (with the simulation of C172); and: every index in views and on its way is that of a node or none |
| C185 | Verif.WeakIter: the loop of Verif.MapIter on the view of its process in Verif.MapWeak | with the lock: simulation by Verif.MapIter (nothing is on its way to a process inside of a section); without: invariant of C181 on the view, with the stores on their way as in C184 |
| C186 | Verif.MapFree: the code of Verif.MapSys for the three unprotected calls, no semaphores, free interleaving | the process that stores: the memory is that of a run alone (path of the rest of the operation, as in C50); readers: invariant of C182 with growth at every store; bounds: every stored index is one of a node; refutations by computation |
| C187 | Verif.MapSweep: three loops of a client over the sequential map, with a condition or a replacement function as parameter | exact effect of one erase and one insert on the chains of C47's representation; induction over the rounds: the chains afterwards are filtered (advance first), without their first hit (in place), or unchanged (values); refutation for every map with two hits in a bucket |
| C188 | Verif.WeakFree: the calls of Verif.MapFree on the views of Verif.MapWeak | the process that stores: as C186, its view is the memory of a run alone; bounds: every index seen, on its way or about to be stored is one of a node (C184); readers: the stores on their way make the view grow one after the other (C184) from a moment when nothing was on its way; refutations by executions |
| C189 | Verif.FreeWords: the calls of Verif.MapFree with values of n words that are copied one by one, in any order (as Verif.MapWords) | simulation: what happens to word j is an execution of Verif.MapFree with values of one word (the accesses to the other words are left out), so every theorem of C186 holds for each word; results of the finite map are determined by their words; the step bounds gain one step per word; refutation by an execution |
| C190 | Verif.ThrowMany: insert(pairs, n) with the loop of Verif.ShmMap and an assignment that throws at pair j, besides the calls of Verif.MapThrow | the loop refines the insertions one by one; the pair that throws as in C179; the lock is free after the end of the process and held until then; refutations for all histories |
| C191 | Verif.FreeIter: the loop of Verif.MapIter, word by word, over the map of Verif.MapFree | the calls are an execution of Verif.MapFree; while nothing is erased every step keeps the chains or makes them longer (Grow), and the place of the loop stays valid (At); refutations by executions with an erasure |
| C192 | Verif.LogTrunc: files as bytes, open file descriptions with offset and O_APPEND, log_create, messages, fork, and another program that copies and truncates | descriptors of log_create append, by induction on the run; the file is the lines since the last truncation; refutations for every state |
| C193 | Verif.InetHost: coda_listen and coda_connect of Verif.Fd with the texts of host and port, read by a model of inet_addr(3) and strtoul(3) | the C library reads dotted decimal texts and decimal numbers back, by induction on the digits; refutations for all names of hosts and services |
| C194 | Verif.Dgram: coda_unix_send and coda_unix_recv on datagram sockets with any number of senders, the kernel's outcomes chosen freely | invariant: the messages received are the first of those sent, the others are under way; refutations for all messages longer than the buffer |
| C195 | Verif.Sleep: coda_msleep of Verif.Gmtime on a clock, with signals at any times and any delays of the scheduler | case analysis on the first signal; induction on the calls of a program that calls again until it has slept; refuted for all signals that come in time |
| C196 | Verif.XmlFloat: setValue of txml.cpp for float, double and long double over a model of strtof, strtod and strtold: decimal numbers as rational numbers, rounded to the nearest value, ties to even | the rounding is nearest among all values of the type, by the logarithm of the number; texts by induction on their digits; refutations for all numbers that are too large and all texts that go on |
| C197 | Verif.Capacity: estimate_capacity with the strings and vectors of libstdc++ as they are in memory: short strings inside of the object, terminators, vectors of bool | arithmetic over all values of any nesting; refuted for all strings, all vectors of bool with room, and all vectors whose elements have something on the heap |
| C198 | Verif.MkTree: coda_mkpath of Verif.Mkpath in a tree of files and directories with permissions, while other processes make directories | the directories of a path follow each other (induction on the text); the tree only grows, so each step succeeds; refuted for all files in the place of the last directory |
| C199 | Verif.PidRm: coda_mkpidf and coda_daemon_stop of Verif.Pidfile, and an administrator who removes the file at any time | removals of stale files keep the invariant of C68; refuted for all removals of files of running processes, for two administrators and for empty files |

## 3. Trusted base

* Lean's kernel (4.33.0) and at most the three standard axioms `propext`,
  `Classical.choice`, `Quot.sound`: no theorem uses any other axiom, there is
  no `sorry`, `admit`, `native_decide` or `bv_decide`. AXIOMS.md lists the
  axioms of each theorem of the manifest, as printed by `#print axioms`.
* The faithfulness of the hand-written models to the cited lines.  Platform
  assumed: 64-bit Linux, 8-bit bytes, signed `char`, 32-bit `int`, C locale.
* The repository's own tests (tests/base58, cache, stringstorage, txml) are run
  on the models by the kernel, with the expected results: Verif/RepoTests.lean.
* Idealised library parts: see the comment at each definition.
* Shared memory is sequentially consistent: one step is one access (relaxed in C172, C173, C184 and C185, which carry results of this model over to processors that delay and reorder stores).

What is modelled:

| file | modelled | not modelled |
|------|----------|--------------|
| base64.c, base64.h, web64.c | encode, decode, alloc variants, tables; malloc as oracle | none of the semantic content |
| base58.c | encode, decode, alloc variants with int indices and scratch buffer | nothing: failing malloc and calloc and the blocks in use are in Verif.Base58Mem (C156) |
| string.c, string.h | all string functions, casts to unsigned char, ascii case tables | locale other than C |
| url.cpp | urlenc/urldec in all variants, escape/unescape/preunescape, parameter, cookie and header parsers | std::string is a list; allocation failure |
| string.cpp, easy_parsing.cpp | split, sets, strappend/strprintf family, word readers | the formatting of vsnprintf itself (an oracle for the text it would produce) |
| cache.hpp/.tcc | the whole class on an explicit pointer heap | the hash table (idealised to a map) |
| shm_stack, shm_pool, shm_hash_map (.hpp/.tcc) | memory words, free stack, chains, batch operations, attach, semaphore lock with SEM_UNDO, kills | shmget/shmat themselves |
| shm_queue (.hpp/.tcc) | ring, semaphores, flush/unflush, boxes, put/get, kills, interrupted semop under all schedules; the whole class call by call: connect, disconnect, registers, any number of handles and keys, failing ftok, semget, shmget, shmat | reset_queue (never called), failing semctl, removal of segments by others, message serialize/deserialize that refuse (QueueApi) |
| synque.hpp | add, signal, both gets, size, exceptions | pthread error codes |
| gmtime.h | coda_gmtime, the argument of nanosleep in coda_msleep | nanosleep |
| log_array.hpp | get_at, get_by_value, swap | element types (Verif.LogHist has them) |
| system.c, system.h | mkpath, mkpidf, fdmove, fdopen, mmap; the system calls as oracles or as a file system with processes | coda_umap and the difference between MAP_SHARED and MAP_PRIVATE (Verif.FileMap has them) |
| socket.h | inet_addr, listen, accept, connect, unix_recv, unix_send (Verif.Stream), set_socket_timeout | set_nonblk and set_sckopt on their own: single system calls (an oracle for their result inside listen, accept and connect) |
| daemon.c | getopt_parse on the sequence of values getopt_long returns, daemon_fork, daemon_load, daemon_stop (in the pid file model), signal_init, the set of signal_mask, signal_handle | getopt_long itself, umask, usage text |
| random.c | coda_random_init up to the argument of srandom | the generator |
| estimate_capacity.hpp | all overloads | classes with a method of their own |
| vietnam.cpp | coda_remove_tones_utf8 completely | std::string's memory |
| stringstorage.c | init, allocate_reallocate_array, get_common_prefix_size, internal_find_add, add, find, enumerate with the blocks as bytes; user data as written and read by a user; string_storage_free and failing calloc and realloc with the blocks of the heap (C131, C132) | memcpy of 0 bytes from the NULL parent counts as defined |
| url_parser.cpp, url_parser.hpp | the whole class: create_absolute, create_relative, create_scheme, assign_anchor, assign_refers, create_suburl on the bytes of the blocks; copy construction, assignment, reset and destruction on a heap of blocks | here failing malloc (Verif.UrlMem has it) and lengths of 2^32 and more (Verif.UrlWide has them); negative lengths given to coda_revnchr are taken to search nothing, as they do when addresses wrap; tolower in the C locale |
| txml.hpp, txml.cpp | determineMember, setValue, begelement, characters, endelement on trees of members; strtobool and the integer conversions; load_from_file with its loop, errors and fclose; the lengths given to XML_Parse | expat itself: the documents are trees of elements, attributes and text, and its calls are in document order (C99, C100), or it is any function of its state and the piece (C101); float, double, long double; classes whose determine is not a list of determineMember calls; the return value of determineMember; failing allocation; encodings; strtol in the C locale with a 64 bit long |
| shm_hash_map.tcc, the class | layout and required_space in their integer types; attach write by write; connect_sem, connect_shm, connect, disconnect with the mappings of the segment; all operations on handles; interrupted semop calls | shmctl, semctl failing; removal of segments by others; a failing first lock in connect_shm other than by EINTR; alignment |
| shm_hash_map.tcc, shm_pool.tcc, shm_stack.tcc, access by access | every operation of the class, the client's own sections and its loops with an iterator, as programs whose steps are single reads and writes of shared memory, run by any number of processes under the lock of the class, with kills between any two steps | compilers and caches that reorder accesses (semop orders them between critical sections); interrupted semop (C116); attach (C111, C115) |
| logger.c, logger.h | log_levels, level filter, log_create_from_str; the path handling of log_create (in the mkpath model); log_fmt, log_msg and log_err with the text they write; thread names; log_die | localtime_r and gettimeofday (any valid time is an input); printf directives other than %s, %d, %u, %lu with 0 and width; fprintf that fails or is split into several writes; log_ret (`do … while (0), err` is no statement of C: a use of it does not compile); pthread_once |
| error.h, error.hpp | coda_error, coda_errno, what | coda_strerror (its text is an input); va_end, which is not called |
| daemon.c, signals and log | coda_signal_handle with its log_notice, and log_fmt with the two locks of the C library that it takes | stdio that is interrupted in itself (the lock of stderr is recursive, the state of the stream is not modelled); errno in handlers |
| shm_queue.tcc, messages of different sizes | box::put, box::get, queue::put, queue::get, flush with room, for any message class; serialize that returns false (Verif.SerFail) | a queue that is full (C56); several processes (C53) |
| shm_queue.tcc, connect under concurrency | connect_sem, connect_shm, connect and disconnect step by step in any number of processes with the same parameters, with kills between any two steps; operations of connected processes as arbitrary changes between lock_queue and unlock_queue | other parameters and failing system calls (C106); interrupted semop (C82); removal of the semaphores or the segment by others |
| cache.tcc, exceptions | set whose insertion into the table or whose assignment of the value throws | copy of the key and hash or comparison that throw in other calls; get into an object whose assignment throws (no effect on the cache) |
| daemon.c, signals step by step | coda_signal_init, coda_signal_init_norestart and coda_signal_mask in a process with one thread: blocked and pending signals, nested handlers, SA_RESTART, SA_RESETHAND, SA_NODEFER and sa_mask as in signal(7); a main loop with one blocking call | several threads; the log messages of the handler (C123); which default actions end a process (all do in the model); real-time signals |
| shm_queue.tcc, unflush with flags and time | the time in struct timespec, IPC_NOWAIT, SEM_UNDO, a flush of another process during the wait, exits of processes | signals during the wait (unflush returns false); several waiting processes at once (Verif.ShmQueue without times) |
| cache.hpp, cache.tcc, pointers and copies | the pointer returned by get, set with a reference into the cache, dbg (numbers, not text), the implicit copy constructor and destructor | two caches used by several threads (assignment and moves: Verif.CacheMove) |
| logger.c, logger.h, system.c: the log as files | log_create and log_rotate system call by system call, in any number of processes and threads that log meanwhile; renames and removals of files | how the C library divides a line into writes (any division is allowed); truncation of a log by others; fork; the filter by level (Verif.Logger) and the text of a line (Verif.LogText) |
| daemon.c: getopt on whole command lines | coda_getopt_parse with its tables; getopt_long of glibc for these tables: permutation, bundles, attached and separate arguments, abbreviations, --, POSIXLY_CORRECT, the global position | what getopt_long prints; argv that is changed between the calls; optional arguments (not used) |
| shm_queue.tcc, from put to get | put, flush, unflush, get of any number of processes with their current boxes, over the ring of Verif.ShmQueue; kills between any two accesses (Verif.QueueKill) | messages of different sizes and serialize that returns false (Verif.VarBox, Verif.SerFail); interrupted locks (Verif.ShmQueue) |
| shm_queue.tcc, shm_hash_map.tcc: the keys | ftok as glibc computes it, with project 1, and all histories of calls on queues and on maps with files in place of keys; a queue and a map on one key between calls | key files that are replaced while the program runs; maps that connect while a call on the queue holds its lock |
| shm_hash_map.hpp, copies | the implicit copy constructor and assignment and the copies that fork makes, between calls of all objects | fork inside of a client section (the child does not own the lock) |
| shm_queue.hpp, fork | the current box of the child, at every point between calls of all schedules | fork by another thread inside of a call |
| shm_queue.hpp, copies | the implicit copy constructor, assignment and destructors, blocks of memory and mappings, all calls of any number of objects of one process | lack of memory; several processes (the queue is a list of boxes here) |
| shm_queue.tcc, registers | set_register and get_register in any number of processes, step by step, with kills and interrupted semop calls | the other calls: sections that do not touch the registers |
| shm_queue.tcc, messages of different sizes | put, flush, unflush, get with the object it is called with, any number of processes, kills, over the ring of Verif.ShmQueue | serialize that returns false (Verif.SerFail); interrupted locks (Verif.ShmQueue) |
| shm_hash_map.tcc, nested locks and fork | the four public lock functions in any number of processes, any nesting, kills, fork (the child has no adjustments for SEM_UNDO) | what is done inside of the sections (Verif.MapSys); interrupted calls (Verif.RwLock) |
| synque.hpp, cancellation | deferred cancellation of any threads at any time over Verif.Synque; pthread_cond_wait is the only cancellation point of the class | asynchronous cancellation; clean-up handlers of the program |
| socket.h, send and recv | coda_unix_send and coda_unix_recv on the two ends of a stream socket: all cuts by the kernel, interruptions, errors and closings | datagrams (Verif.Dgram has them); several senders; a count whose sign is lost together with errno = EINTR (the loop would go on) |
| shm_hash_map.tcc, values of several words | all operations and kill points of Verif.ShmMap with `objects[i].p.value = val` as a sequence of stores of words, any number of words, any order | types whose operator= does more than copy; the copy out of read, which is made under the lock |
| shm_hash_map.tcc, concurrent calls with values of several words | Verif.MapSys with the copies of values as one access per word, any number of words, any order | as Verif.MapSys |
| shm_queue.tcc, one object shared by threads | put, flush, get and unflush of any number of threads on one object, one step per access to `pos` and per access to the box; with and without a mutex of the program | word tearing inside of one memcpy or serialize; weak memory order; the queue's own semaphores (Verif.ShmQueue): here flush finds room, and unflush a box, as any oracle says |
| shm_hash_map.tcc, threads | Verif.MapSys with threads that belong to processes: one set of SEM_UNDO adjustments per process, applied when it ends with all its threads; threads that end alone anywhere | threads that go on after an exception inside of a call; fork (Verif.MapNest) |
| shm_hash_map.tcc, shm_queue.tcc, removal of the semaphores | semaphore sets with generations, removed at any moment; lock, unlock, connect, disconnect and ends of processes of the map; the critical section and the boxes of the queue | the steps of connect_sem (C81, C129: here one step); numbers of sets that are used again; removal of the memory segments |
| shm_pool.tcc, shm_stack.tcc, concurrent calls | allocate and free of any number of processes, one step per access, with and without a mutex of the program | ends of processes inside of a call; compilers that merge the reads of `*current` in empty() and pop() (C167_refuted and C167_refuted_lost hold with merged reads too, C167_refuted_ub needs the second read) |
| random.c, threads | coda_random_init access by access in any number of threads; the generator as a function of seed and position | the data race on the flag as undefined behaviour; short reads (C88) |
| cache.hpp, several caches | the implicit copy and move constructors and assignments, std::swap and destructors of any number of caches in one memory | self-move; assignments that use the nodes of the target again |
| url_parser.cpp, malloc that fails | creation, copies and assignments of any number of objects, with an outcome for every malloc |  |
| shm_hash_map.tcc, shm_queue.tcc, memory | Verif.MapWeak and Verif.QueueWeak: a view for every process, stores that arrive at each other process separately and in any order that keeps the order of stores to one word; a semop that takes a lock waits for the stores that were made before | loads that a process makes early (speculation) across the semop of its own lock; accesses without a lock (boxes_in_queue, registers, iterators) |
| shm_hash_map.tcc, removal of segments | Verif.SegRm: the calls of Verif.MapApi with the segments of key files removed between calls (IPC_RMID): a removed segment lives on for those who mapped it, the next shmget makes another one; the semaphores stay | removal in the middle of a call |
| shm_queue.tcc, removal of segments | Verif.QueueSegRm: the calls of Verif.QueueApi with the segments of key files removed between calls (IPC_RMID): a removed segment lives on for those who mapped it, the next shmget makes another one; the semaphores stay | removal in the middle of a call |
| url_parser.cpp, lengths | Verif.UrlWide: val_len and dom_len in 32 bits in create_absolute, create_relative and copies; Verif.UrlParser uses them without bound |  |
| shm_hash_map.tcc, exceptions of values | Verif.MapThrow: insert and read whose assignment of the value throws, with the semaphores, in any number of processes that go on or end | batches; sections of the client; calls in the middle of others (C117) |
| system.c (coda_mmap), system.h (coda_umap): contents | Verif.FileMap: files, shared, private and anonymous mappings, accesses, pages of 4096 bytes, SIGBUS and SIGSEGV as one outcome; a call takes effect at once | other programs that change the files; read(2) and write(2); PROT_EXEC; failing system calls (Verif.Fd) |
| shm_hash_map.tcc (unprotected_read without the lock) | Verif.MapPeek: every load is a step; interleaved with all calls of Verif.MapSys | unprotected_insert and unprotected_erase without the lock; memory that is not sequentially consistent (Verif.MapWeak); a value that is copied in parts (Verif.MapTorn) |
| log_array.hpp as counters | Verif.LogHist: the specialised constructors, get_by_value(v)++ in the arithmetic of each fundamental type, swap | element types that are classes |
| shm_hash_map.tcc (unprotected_read without the lock), delayed stores | Verif.WeakPeek: the loads of the call on the views of Verif.MapWeak | loads that are reordered or speculated |
| shm_hash_map.hpp (const_iterator), delayed stores | Verif.WeakIter: the loads of the loop of Verif.MapIter on the views of Verif.MapWeak | loads that are reordered or speculated |
| shm_hash_map.tcc (unprotected_read, unprotected_insert, unprotected_erase without any lock) | Verif.MapFree: every access to shared memory is a step, free interleaving of any number of processes | several reads of the same word in a row are one (matters only with several processes that store); sections with the lock at the same time (Verif.MapPeek) |
| shm_hash_map.hpp (const_iterator) with changes in the loop | Verif.MapSweep: the usual three loops (erase and advance, advance and erase, replace the value) over Verif.ShmMap | insertions of new keys in the loop (C181 covers them: nothing is erased); other processes at the same time (Verif.MapIter) |
| shm_hash_map.tcc (unprotected_read, unprotected_insert, unprotected_erase without any lock, delayed stores) | Verif.WeakFree: the calls of Verif.MapFree on views of the segment with stores that arrive separately at each process, in any order that keeps stores to one word in order | as Verif.MapFree; values that are stored in several pieces |
| shm_hash_map.tcc (unprotected_read, unprotected_insert, unprotected_erase without any lock, values of several words) | Verif.FreeWords: the calls of Verif.MapFree, the copies of a value (:127, :233, :251, :270) word by word in any order, each word once | as Verif.MapFree; types whose assignment reads a word twice or writes a word twice; delayed stores |
| shm_hash_map.tcc (insert of several pairs), exceptions of values | Verif.ThrowMany: insert(pairs, n) whose assignment throws at any pair, with the calls of Verif.MapThrow | exceptions in sections of the client |
| shm_hash_map.hpp (const_iterator), no lock at all | Verif.FreeIter: loops of any process, read by read, while one process stores without a lock | several processes that store (see C186), delayed stores |
| logger.c, logger.h: logs that others truncate | Verif.LogTrunc: bytes, offsets and O_APPEND, with fork, copies and truncations | lines that are written in several parts, failures and renames (Verif.LogFile) |
| socket.h, texts of hosts and ports | Verif.InetHost: coda_listen and coda_connect with a model of glibc's inet_addr (octal, hexadecimal, one to four parts, white space) and strtoul | locales; C libraries other than glibc |
| socket.h, datagrams | Verif.Dgram: coda_unix_send and coda_unix_recv on datagram sockets of the unix domain; several senders | sockets of other domains, which lose and reorder datagrams |
| gmtime.h, coda_msleep with signals | Verif.Sleep: coda_msleep on a clock in nanoseconds with signals and delays | clocks that are set; times after which time_t overflows |
| txml.cpp, floating point members | Verif.XmlFloat: setValue for float, double and long double | texts of infinities, NaN and hexadecimal numbers; the sign of 0; locales with another decimal point; other rounding modes |
| estimate_capacity.hpp with libstdc++ | Verif.Capacity: strings with their own room, terminators, std::vector<bool> | the bookkeeping of malloc; reference-counted strings (the old ABI of libstdc++) |
| system.c, coda_mkpath in a tree | Verif.MkTree: mkdir(2) in a tree of files and directories, with permissions and other processes | ., .. and symbolic links; permissions to search; removals by others |
| system.c, coda_mkpidf with removals by hand | Verif.PidRm: the processes of Verif.Pidfile and removals of the file at any time | renames, other writers of the file |

## 4. Disagreements between code and natural claims

For each of them the repository contains a theorem with a concrete witness
(named `…_refuted…`) and, where the claim holds on a smaller domain, a theorem
with the suffix `_partial`.

* **C14** `coda_base58_decode` with an invalid *first* character returns 0 instead of −1.
* **C16** `coda_base58_encode_alloc` returns its size estimate, not the length of the result.
* **C22** `coda_url_escape` uses a signed char as table index: a byte ≥ 128 reads before the table. With `sz < 3` the limit `sz - 3` wraps around and the output overruns the buffer. A text that does not fit may be cut inside an escape.
* **C23** with `sz < 2` the limit `sz - 2` of `coda_url_unescape` wraps around, and the output overruns the buffer.
* **C24** the limit of `coda_url_preunescape` is `sz + 5`: a text as long as the buffer or longer overruns it.
* **C27** A header line that starts with NUL ends the sized parser.
* **C29/C30** `coda_strnstr` and `coda_strxstr` find nothing in a range that begins with NUL, and read the first byte of a range of length 0.
* **C32** `coda_revnspn`/`coda_revxspn` return one more than the length of the suffix unless the whole string matches; the comment in string.h says that the rev* results count from the beginning, the code counts from the end.
* **C34** The sized `split` treats NUL bytes as delimiters.
* **C36** `uint64set` inserts an indeterminate value for a piece that does not start with a number.
* **C37** `strnappend`/`strnprintf` throw on every call when `num` ≥ 2^31.
* **C41** `cache::set` of a present key may exceed the size limit and never evicts.
* **C43** The expiry test overflows for extreme clocks/limits (outside the quantifier; witness given).
* **C52** A process killed between the two writes of `stack::push` (in erase) or inside `clear` leaves a map whose free list is wrong.
* **C54** Rings with more than 32768 boxes overflow the count semaphore; `semop` fails, its result is ignored, boxes are lost.
* **C56** `flush` into a full ring drops the box silently; `put` still returns true.
* **C81** Two processes that connect first concurrently may both initialise the semaphores, breaking exclusion.
* **C82** `lock_queue` ignores EINTR: after an interrupted `semop` the caller goes on without the lock.
* **C83** A process killed inside `flush`/`unflush` can leave `end`/`start` one past the ring, or a half cleared box.
* **C84** A getter of synque that was woken by an add may find the queue empty (another getter was faster) and returns −1 although nobody called signal().
* **C85** An exception thrown inside synque's add/get leaves its mutex locked for ever.
* **C63** `coda_gmtime` stores the full year and a 1-based month into `struct tm`; it leaves tm_yday and tm_isdst unset.
* **C65** `coda_inet_addr` computes components modulo 2^64 (18446744073709551626.0.0.1 is 10.0.0.1), accepts empty components, and 255.255.255.255 equals its error value.
* **C66** `log_levels` looks at the first one or two letters only: "cool" is the level crit.
* **C67** `coda_mkpath("")` reads past the terminator; an ordinary file in place of the last directory goes unnoticed.
* **C69** `coda_fdopen` leaks the new descriptor if dup2 fails.
* **C87** `log_create` writes into its `const char*` argument: a string literal with a '/' in it is undefined behaviour.
* **C88** `coda_random_init` leaks its descriptor if read fails, and seeds with indeterminate bytes after a short read.
* **C89** `coda_daemon_fork` leaks the descriptor of /dev/null if dup2 fails.
* **C90** `coda_mmap` returns -1 but keeps the mapping if close fails; it always fails for PROT_READ with a size, because ftruncate needs a writable file.
* **C91** Port numbers are cut to 16 bits: 65616 means 80.
* **C94** `coda_unix_recv` stores the result of recv in an int: 2 GiB at once is taken for an error.
* **C95** `coda_set_socket_timeout` puts everything into tv_usec; the kernel refuses a second or more.
* **C96** `estimate_capacity` of a vector of strings ignores the memory of the strings.
* **C73** `coda_remove_tones_utf8` stops removing tones at an overlong NUL (C0 80), so that it is not idempotent on malformed text.
* **C74** `string_storage_add` can hide an earlier string: with 30 a's, 25 a's + `bXXXXXXXXX` and 20 a's + `bXXXXXXXXXY` in the storage, adding 20 a's + `bA` makes the third string unfindable; adding it again gives another slot.
* **C75** `string_storage_add` checks `strlen + 1 + user_data_size` against 4096 but stores one byte more: a string that fills the block exactly is written one byte past its end.
* **C76** `string_storage_enumerate` reports a wrong text for a string whose tail was found under a node of another depth (the strings of C74).
* **C77** `get_domain` of `http://x.a..b/` is `a..b`, three labels. With a NUL in the text `get_url_len()` is larger than the length of `get_url()`. The host may be empty (`#x` gives `http:///`), and a port counts as part of the domain.
* **C78** `coda_strxstr(u, "https://", 8)` searches eight bytes whatever `sz` is, and `create_relative` eleven (`javascript:`), even behind the NUL of a C string: `create_absolute("a.com", 5)` reads past the end of the literal. With `u = "http://x.com/"`, `sz = 3`, the scheme is found behind `sz` and memmove gets a negative size.
* **C79** `create_suburl` tests the fifth character of the parent only for `s`: with a parent `HTTPS://www.host.com/d/e` the host counts as a directory, and `../../evil.org/` yields `HTTPS://evil.org/` with the domain still `host.com`.
* **C80** `operator=` frees its own block before it copies: self-assignment of a non-empty URL reads freed memory.
* **C97** as for C79: `/f/./index` against `HTTPS://www.host.com/d/e` yields `HTTPS://f/index`. Whether a text is `mailto:` or `javascript:` is decided on bytes that may lie behind `sz`.
* **C99** The text of an element that is followed by a child element is dropped: `<a>one<b/>two</a>` gives `two`.
* **C100** `std::vector<std::vector<T> >` as a member: the inner `setValue` looks at the same level, finds it pushed, and takes `back()` of the new, empty vector. The same happens to the second of two list members with the same key.
* **C102** `<debug> true </debug>` is false: strncasecmp does not skip white space, while strtol does. Beginnings count: `t`, `o`, `ye` are true.
* **C103** `int32_t`, `uint32_t` and `uint8_t` members take the value of strtol or strtoul modulo their size: 4294967297 becomes 1, 256 becomes 0, -1 becomes 255.
* **C104** `parse` takes the length as unsigned int and hands it to `XML_Parse` as int: from 2^31 bytes on the length is negative, from 2^32 bytes on only a part is parsed, as if it were all.
* **C105** `queue` with 0 boxes divides by zero in flush; `MAX_BOXES_IN_QUEUE * BOX_SIZE` is computed in 32 bits, so that a queue of 2^32 bytes gets a segment without boxes and flush writes behind it.
* **C106** `connect_shm` throws while connect holds the lock (no shmget, shmat, or too small a segment): every other process that connects waits until this one ends (SEM_UNDO); the handle keeps its `sem_id`, disconnect does nothing because `info` is NULL, and connect throws `sem already connected` for ever. With other parameters than those of the queue the message of the exception is built from `info->box_size` after `info = 0`.
* **C107** `set_register` and `get_register` do not test `info`, which is NULL before connect and after disconnect.
* **C108** `%u0416ab` gives nothing: strtol takes all digits that follow, not four. Characters from U+0800 on and U+007F disappear.
* **C109** `a\x41b` gives `ab`: the four characters are copied, but the output pointer is not advanced.
* **C110** `floor1024` and the sizes are 32 bit: with 2^26 nodes of 64 bytes `map_data_size` is 0, the buckets lie on the nodes, and the segment ends before the nodes do.
* **C112** `connect` on a connected map throws and disconnects it (the handler of the exception calls disconnect). If connect fails after connect_sem (no memory, another map with a smaller segment), `sem_id` stays set and `shmem_p` NULL: disconnect returns at once, every later connect throws `sem already connected`, and `insert` and the others do not throw but dereference `hash`, which is NULL.
* **C113** `disconnect` calls detach, which sets `shmem_p = 0`, and then `shmdt(shmem_p)`: the segment is never unmapped.
* **C114** `begin()` dereferences `hash`, which is NULL if the map is not connected.
* **C115** `attach` writes the header words before the buckets and before the words of the stack and the pool: after a kill in the loop over the buckets the next connect takes the map as complete, and the buckets that were not written are 0, a chain of node 0 with itself; after a kill before `*current = -1` of the stack node 0 is handed out twice; after a kill between the header words no one can connect.
* **C116** The handler in `connect` calls unlock_write_rw also if it was lock_write_rw that threw (EINTR): it releases the lock of another process, whose own unlock then waits; and when the process ends, SEM_UNDO adds one to the semaphore.
* **C117** As for C52: after a kill between the two writes of `free_nodes.push` a key that nobody has erased is gone.
* **C118** With one bucket the same kill makes the chain cyclic: the next `read` of a key that is not on it never ends, and keeps the read lock, so that no process can write any more until it is killed.
* **C119** `lock_read_rw` waits only for writers that have the lock, not for those that wait: as long as one reader gets the lock before another has released it, a writer waits.
* **C120** `log_err` has `\n` at the end of its format and LOG_FORMAT adds another: an empty line after each. Newlines in arguments are written as they are: a line of the log can be forged. `log_thread_name_set` keeps the pointer.
* **C122** `coda_errno` appends the error number: with a message of 4095 bytes or more it is cut off.
* **C123** `coda_signal_handle` calls log_notice before it sets the flag. log_notice calls localtime_r, which is not async-signal-safe: if the signal arrives while the thread is inside of localtime_r for another log message, the handler waits for the lock of its own thread; the flag is not set, and nobody can log any more. The default level (info) logs notices.
* **C124** The parent exits with EXIT_SUCCESS before the child has called setsid, opened /dev/null or written the pid file: a start that fails because the daemon runs already has status 0.
* **C125** `if (x) log_die(...);` becomes `if (x) do … while (0); exit(EXIT_FAILURE);`.
* **C127** The iterator takes no lock, and `operator++` reads `next` twice: without a lock of its own a loop loses its place when the entry at which it stands is erased (entries are missed), sees an entry again that was erased and inserted anew, and goes on with `objects[-1]` if `next` becomes -1 between the two reads.
* **C128** `queue::get` asks whether there is room for the size of the object it is called with, which is that of the message read before (or of a new object), not that of the next message: in a loop with one object a message that is smaller than the one before it is lost if it ends the box; with a new object of size 0 get reads behind a full box. `serializable::size()` is not abstract and returns 0: messages of a class that does not define it overwrite each other.
* **C129** `connect_sem` asks with one semget whether the semaphores exist and makes and sets them with others: two processes that connect for the first time can both find none; the slower one sets the lock to 1 while the other holds it, and the count to 0 while there are boxes. In `connect_shm` both then can find no segment; the slower one clears it.
* **C130** Killed between `semget(IPC_CREAT)` and SETVAL the process leaves the lock at 0: every later connect waits for ever. Killed between `shmget(IPC_CREAT)` and the second parameter it leaves a segment with wrong parameters: every later connect dereferences NULL in `info->box_size`.
* **C131** `string_storage_free` does not reset the storage: a second call frees again, and searches and additions use freed memory.
* **C132** `r->children = allocate_reallocate_array(r->children, …)` overwrites the pointer with NULL if realloc fails: the addition returns 0, but the count of children stays, every later search dereferences NULL, and the array is lost. The same for `sb->blocks`; there the new block is lost as well, and the children have already been moved: the child at the place of the new one is there twice and the last child is gone. `newcurrent` is not tested: NULL is written through.
* **C133** `set` links the new entry with a default value into the list and only then assigns the value: if that throws, the entry stays, and get returns the default value. For a key that is there it subtracts the old size from `size_cur` before the assignment: if that throws, the size of the entry is subtracted again when the entry goes, `size_cur` wraps around, and the next insertion drops all entries and dereferences NULL.
* **C134** `coda_signal_init_norestart` keeps the flags of the former action except SA_RESTART: if that had SA_RESETHAND, the second signal ends the process.
* **C135** With `coda_signal_init` (signal() of glibc sets SA_RESTART) the call in which the program waits is started again after the handler: the loop does not see the flag. With `coda_signal_init_norestart` a signal between the test of the flag and the call sets the flag, but the call then waits; the library offers no atomic unblock-and-wait.
* **C136** A negative `sem_usec` gives a timespec that the kernel refuses: unflush returns false at once. With SEM_UNDO in `sem_flg` the kernel adds the boxes that a process has received to the count again when it exits: another reader then receives an empty box that nobody sent, `start` overtakes `end`, the ring looks full, and the queue never delivers anything again.
* **C139** coda_cache has pointers into the nodes of its table, but no copy constructor: `begp`, `endp` and the links of a copy point into the original. A copy of a cache with entries whose original is destroyed dereferences freed memory when the first new key is set; while both live, erasing in the copy unlinks the entry of the original.
* **C141** A line that fprintf writes in several parts can be divided between the old and the new file by log_rotate in another thread, or be mixed with a line of another process.
* **C142** If close of the temporary descriptor fails, log_create returns -1 and does not set the level, but the log has already been switched. Two calls at once can leave the file of one call and the level of the other.
* **C144** coda_getopt_parse does not reset optind: a second call with the same arguments clears the settings and finds no options (it returns 0 with config NULL), and after a failed call the next one goes on behind the mistake and may succeed.
* **C146** A queue object has one current box for reading and writing. If a process gets a message from a box and then puts one, the rest of the received box is overwritten (those messages are got by nobody) and flush sends the messages already read again. If deserialize accepts zero bytes, the unused rest of a box is read as messages that nobody sent.
* **C147** ftok uses 16 bits of the number of the file and 8 bits of the device: files whose numbers differ by a multiple of 65536 give the same key, and the library takes them for one file. Among any 65537 files of a device two clash.
* **C148** Both classes use ftok(file, 1) and semaphores 0 and 1, but a free queue has the values 1, count and a free map 0, 0. A map connected with the file of a queue waits in `lock_write_rw` for ever, a queue connected with the file of a map in `lock_queue`; neither reports an error.
* **C150** A fork copies the current box: messages that were put but not flushed are sent by parent and child, and a box that was received but not read up is read by both.
* **C151** queue and box have no copy constructor: a copy of a connected queue shares the memory of the current box and the mapping. Destroying both releases the box twice; after one is destroyed the other uses released memory; messages put in one overwrite those put in the other; assigning to a connected object leaks its box and its mapping.
* **C152** A reader that is killed inside of the memset of unflush leaves a box of which only the first bytes are cleared; the next reader receives it again and gets messages that nobody sent. A process killed between `start++` (or `end++`) and the modulo leaves an index behind the last box, and the next process reads or writes outside of the boxes.
* **C153** `queue::put` takes a serialize that returns false for a full box: it flushes the current box, with what serialize has written behind `pos`, and calls serialize again. If serialize writes before it refuses, readers get messages whose put returned false, or get a message twice; each refused put sends a box, even an empty one, so that refused puts fill the ring.
* **C155** `queue::get` asks the object it is given, not the message, for its size. A reader that goes on with the object it got does not see a smaller message at the end of a box; it is lost with the next unflush. A new object with size() 0 makes get read behind the end of a full box.
* **C156** `coda_base58_encode` does not check calloc. `coda_base58_decode` returns minus the number of leading '1's when calloc fails: 0, as for an empty text, for every text that does not begin with '1'. `coda_base58_decode_alloc` returns `true`, that is 1, when malloc fails. `if (carry) return` does not free the scratch buffer; it is reached only for texts of more than 2.9 GB, whose scratch length does not fit in `int`.
* **C157** The locks are public, but the operations lock by themselves and the lock is not recursive: `insert` between lock_write_rw and unlock_write_rw, `read` or `size` there, or `insert` between lock_read_rw and unlock_read_rw wait for the caller itself, forever.
* **C158** The kernel does not copy the SEM_UNDO adjustments at fork. A child that returns from the section of its parent releases the lock of the parent: a writer can enter, the parent's release waits. When the child ends its release is taken back; if the parent was killed before, the lock stays taken for reading although nobody holds it, and nobody can write any more.
* **C159** `get` waits in pthread_cond_wait, a cancellation point, without a clean-up handler. A thread that is cancelled there takes the mutex again and ends with it locked: every later call waits forever.
* **C160** `coda_unix_recv` repeats after EINTR, `coda_unix_send` does not; it returns what send(2) took, which may be less than it was given. Both convert the number of bytes to int.
* **C161** `unprotected_insert` assigns over the value in place. A process killed inside the assignment leaves a value that is partly new and partly old; its lock is released (SEM_UNDO), and readers take the value for valid.
* **C162** As C161, for concurrent processes: a kill between two words of an assignment is the only way to a torn value; without kills no reader ever sees one.
* **C163** `put` and `get` use the current box of the object without a lock, and `flush` clears it after its lock is released. Two threads that share an object can lose a message, get one twice, or write past the end of the box: both find room, the first advances `pos`, the second serializes there.
* **C164** The calls take the lock and release it without a guard object. An exception of the value's assignment (or the end of the thread in a section of the client) leaves the lock taken; SEM_UNDO works only when the whole process ends. Until then no writer, and after a write section no reader either, gets on.
* **C165** `lock_*` and `unlock_*` throw when semop fails, so old handles are harmless; but a writer that is inside at the removal goes on, and a process that connects creates new semaphores with the value 0 and enters too. The writer's call then throws from the unlock, after its change.
* **C166** `lock_queue`, `unlock_queue` and `flush` do not look at the result of semop. After a removal connected processes work without a lock, and the boxes they store are not counted. `connect_sem` makes the count 0 whatever is in the ring: as many boxes as were there stay in it forever, and a full ring can never be used again.
* **C167** The pool and its stack have no lock. Two concurrent `allocate` calls can return the same object, or pop an empty stack and read `data[2^32 - 1]`; two concurrent `free` calls can lose an object. The hash map takes its lock around all of them; other users of the classes must do so too.
* **C168** Test and store of `coda_random_inited` are not atomic: a thread that tested the flag before another one finished calls `srandom` later, in the middle of the numbers of the other.
* **C169** The implicit move leaves `begp`, `endp` and `size_cur` of the source as they are, while its table is empty: any `set` on it writes to nodes of the other cache or to freed ones.
* **C170** The implicit assignment copies the pointers `begp`, `endp`, `prev` and `next`, which lead to the nodes of the source.
* **C171** No result of malloc is looked at (url_parser.cpp:30, 57, 95, 110): every call that stores a text writes through NULL when memory runs out; a reference with a scheme is written before its domain is compared, so that even a call that should fail does.
* **C173** lock_queue ignores the result of semop (shm_queue.tcc:385-393): after an interruption its process goes on without the lock, and also without the barrier.
* **C174** connect finds segment and semaphores separately by the same key and checks nothing that ties them together (shm_hash_map.tcc:327-412): after a removal of the segment old and new handles use two maps under one lock.
* **C175** The number of boxes is kept in a semaphore, the boxes in the segment, and connect checks nothing that ties them together (shm_queue.tcc:119-219); reset_queue clears only the segment (176-185). After a removal of the segment the count of the old boxes is used for the new queue.
* **C177** val_len is a uint32_t, sz a size_t (url_parser.hpp:12, url_parser.cpp:138-149, 361): of a text of 4 GiB or more a part at the front is made the URL, and 0 is returned.
* **C178** `val_len + dom_len + 2` is computed in 32 bits (url_parser.cpp:30, 57): for a URL that takes 4 GiB together with its domain (a host of 2 GiB is enough) the copy has a block of the wrong size; its strings have no end.
* **C179** Nothing releases the lock when the assignment in insert or read throws (shm_hash_map.tcc:139-155): all calls of all processes wait until the process ends. The node that insert had allocated is lost (250-259, 264-271): size counts it until clear.
* **C180** coda_mmap with a size that is not 0 and smaller than the file cuts the file (system.c:145-147): what is behind is lost, and processes that have mapped it get SIGBUS.
* **C182** unprotected_read without the lock may miss a key that nobody erases, and may deliver the value of another key, if another process erases (shm_hash_map.tcc:117-137, 290, 307): the erased node is taken out of its chain and reused at once.
* **C183** get_by_value(0) is the last bucket, that of the largest values (log_array.hpp:118-125); the elements of a new log_array<long long> or log_array<signed char> are not initialised (16-19: no specialisation).
* **C184** unprotected_insert fills a node and links it with plain stores (shm_hash_map.tcc:250-254, 269-273): where stores may be reordered (not on x86), unprotected_read without the lock may deliver a value that was never inserted, or go round in a chain.
* **C185** operator++ reads next and hash[i] twice (shm_hash_map.hpp:106-108, 115-118), and unprotected_insert links a node with plain stores: where stores may be reordered (not on x86), a loop without the lock may read objects[-1] although nobody takes anything out of the map.
* **C186** unprotected_insert without the lock in two processes at once (shm_hash_map.hpp:74): both return true and one entry is lost (shm_hash_map.tcc:262-273), or both get the same node (shm_pool.tcc:58) and a key has the value of the other.
* **C187** erase(it.key()) followed by ++it leaves out the rest of the bucket (shm_hash_map.tcc:290, 307 set next of the erased node to -1, shm_hash_map.hpp:104-130 reads it): entries that should be erased remain.
* **C188** without barriers in unprotected_insert (shm_hash_map.tcc:262-273) the store to the bucket may arrive before those to the new node: a reader without the lock delivers a value that nobody inserted or goes round in the chain. On processors that keep stores in order (x86) this does not happen.
* **C189** out = objects[elem].p.value and objects[el].p.value = val (shm_hash_map.tcc:127, 233) copy a value that is larger than a word in several accesses: a read without the lock while the value is replaced delivers a mix of the old and the new value, which nobody inserted.
* **C190** insert(pairs, n) (shm_hash_map.tcc:157-172) has no guard for the lock: an exception of the copy of one value leaves the map locked for everybody until the process ends, with the pairs before it inserted and an entry lost.
* **C191** operator++ (shm_hash_map.hpp:104-124) reads `next` twice and nothing keeps an erased entry alive: an erasure during a loop, without the lock, makes the loop miss entries, meet them twice, or read objects[-1].
* **C192** A program that logs to an inherited descriptor (without log_create, which is the only place that asks for O_APPEND, logger.c:42) leaves holes of zeros when its log is truncated; and a line logged between the copy and the truncation by another program is lost for every log.
* **C193** coda_listen and coda_connect do not check the results of inet_addr and strtoul (socket.h:134-135, 189-190): a host name is taken for 255.255.255.255 and a service name for port 0.
* **C194** coda_unix_recv passes no MSG_TRUNC (socket.h:54): a datagram longer than the buffer is cut and its end is lost without any sign. coda_unix_send does not repeat calls that a signal interrupts (socket.h:44), as coda_unix_recv does.
* **C195** coda_msleep passes NULL for the remaining time (gmtime.h:15): after a signal it returns -1 and a caller that calls it again starts from the beginning, for ever if a timer is faster.
* **C196** setValue (txml.cpp:143-145) passes NULL for the end of the number and does not look at errno: 1,5 is read as 1, 1e999 as infinity and abc as 0.
* **C197** estimate_capacity adds capacity() to sizeof for strings (estimate_capacity.hpp:29-32) although short strings lie inside of the object, forgets the terminator of long ones, and counts a byte for each element of a vector of bool (estimate_capacity.hpp:22-25).
* **C198** coda_mkpath (system.c:48) takes EEXIST for success although a file may stand there, and does not remove the directories it has made when it fails.
* **C199** coda_mkpidf (system.c:62-102) does not test after flock that the path still leads to the file it has locked: after the removal of an empty file two processes succeed. It has no test of its own for stale files, so they are removed by hand, and two administrators who both look first let two processes in.
