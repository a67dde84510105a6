# Formal model of xitren/patterns in Lean 4 — design

Technique: Lean 4.33.0, small total computable models of each header, one per
component, under `lean/Verif/<Component>/`:

* `Model.lean` — the code, function by function, each definition citing file:lines of `/repo`.
* `Spec.lean` — (where needed) the independent, much simpler specification the property talks about.
* `Proofs*.lean` / `Lemmas*.lean` — helper lemmas.
* `Props.lean` — the property theorems (`Cxx_...`), each followed by `example`s
  showing that a concrete non-trivial case meets its hypotheses.

## Trusted base

* Lean's kernel. Theorems may depend on the three standard axioms `propext`,
  `Classical.choice`, `Quot.sound` and on nothing else: no axiom of ours, no `sorry`,
  no `native_decide`, no `bv_decide`.
* The reading of the C++: nothing is extracted or executed; the tie between code and model
  is the cited source lines.
* Platform assumptions: 8-bit bytes, 64-bit `size_t` and pointers, 32-bit two's complement
  `int`, flat address space. Host byte order is a parameter where it matters.
* Not modelled anywhere: strict aliasing, union type-punning legality, weak memory (atomics are sequentially consistent as in the code), compiler
  behaviour, `Log` output (`#ifdef DEBUG`).

## Conventions

* Undefined behaviour is an outcome (`Res.ub`), not an assumption. A loop that may not
  terminate has a fuel argument and an outcome `Res.hang`; absence of both is a theorem.
* `size_t` arithmetic is `Nat` with explicit reduction modulo 2^64 wherever C++ could wrap.
* Threads: small-step transition systems whose atomic steps are the atomic operations /
  unsynchronised accesses of the code; theorems quantify over all finite schedules.
* Data races are found from a record of accesses that each step makes. That this record is true is proved beside each such
  model (`Access.lean`, `ThreadsAccess.lean`, `FixedThreadsAccess.lean`; theorems `_accesses`, `_depends`, `_writes`): what changes
  in a step is among what it is recorded to write, and what it does depends only on what it is recorded to read.
* Callbacks of users are arbitrary programs; theorems about what is called speak of a log. That the log is what the user's
  functions really get, in order and with these arguments, is proved in `Seen.lean`, `WorldSeen.lean`, `UnboundSeen.lean` (theorems
  `_seen`): functions that note their calls in the user's own state, and do anything else, end up with the calls in the log.
* Template functions that cannot be instantiated (they would not compile) are listed under
  "Code that does not compile"; where the intent is unambiguous the intended meaning is modelled
  and the property is labelled *as-if*.

## What is modelled, file by file

Each section says which functions of `/repo/include/xitren` the model covers, what is left out, where the model
is simpler than the code, and what the proofs found. "Refuted" means that a theorem `Cxx_..._refuted` exhibits an
execution of the model that breaks the property; the `_partial` theorem beside it states the part that holds.

### `allocators/static_heap.hpp` (`Heap/`) — C01..C17, C129, C130, C156..C159
Modelled: constructor, `allocate`, `callocate`, `deallocate`, the insertion with coalescing, the free-size
counters and their reset, `v_port_get_heap_stats`. `config_assert` and the task-suspension hooks are empty in the
code and have no counterpart.
Memory is a map from addresses to bytes; block headers are two little-endian 64-bit words (protected next pointer,
xor canary; size, top bit = allocated). `x_start_` lives in the same memory outside the buffer. Every load and
store is checked (inside the buffer or `x_start_`, 8-aligned) and yields `ub` otherwise. `Reach` is reachability by
legal client calls with a ghost record of the live blocks. The invariant says that memory represents a list of
blocks tiling the usable area with no two adjacent free blocks; each operation refines a list-level specification.
`Threads.lean` adds threads: a call is a program of single loads, stores and uses of members that runs step by step, next
to the reads, writes and synchronisation of the users, with happens-before (`HappensBefore.lean`) over memory and members;
`ThreadsAgree` proves that a program that runs alone is the call of `Model`. The suspension hooks are empty and so are no
steps; a header is accessed in words of 8 bytes, and `memset` of `callocate` is one access to each byte.
`Fail.lean` gives the failure callback a body: code that may use the heap, call `on_fail` and throw, run inside `allocate`;
each `on_fail` makes a new function object, and a body that uses what it captured after that is undefined. Every
run is a run of the plain model (`exec_spec`), so that all of C01..C17 holds for such programs.
`Copy.lean` has the implicit copy of a heap: members and bytes are copied, the links lead into the buffer of the original. The
model of the copy faults if it touches its own buffer, so that C159 shows that it never does.
Left out: threads during construction and destruction; a copy that outlives its original (its links dangle).
Findings: a `callocate` whose product overflows returns `nullptr` without the failure callback; a buffer with less
than 16 usable bytes makes the constructor write outside it (C16); `v_port_get_heap_stats` names an undeclared macro and
does not compile (C17 is *as-if*), and its smallest block is wrong if all free blocks exceed 4 GiB - 1; nothing keeps
threads apart, so that two of them can get the same block from every heap that has one (C129); a request is not tried
again after the failure callback, so that a callback that releases memory does not help it (C157); a callback that asks
again for what was refused never comes back, and one that replaces itself must not use what it captured (C158);
heaps can be copied, and a copy manages the buffer of the original and hands out the blocks it hands out (C159).

### `allocators/static_heap_allocator.hpp` (`Heap/Allocator`, `Heap/Align`, `Heap/Vectors`) — C18, C19, C123, C177
Modelled: `allocate`, `deallocate`, copies, `operator==`, on top of the heap model.
Findings: `n * sizeof(T)` is unchecked (C18 refuted on overflow); `operator==` is object identity, so copies
compare unequal (C19); `allocate(0)` throws (C18); memory is 8-aligned only, so on every heap with some room a
type with alignment 16 or more gets misaligned storage after a suitable history (C123). `alignof(T)` enters only
as a number in the statement of C123: the code never looks at it.
`Heap/Vectors` has any number of vectors on one heap as client code (C177): elements copied as bytes, any growth policy; element
constructors that throw are not modelled.

### `func/data.hpp`, `func/packet.hpp` (`Data/`, `Packet/`) — C20..C31, C94, C95, C128, C138, C170..C173
Modelled: byte swaps, `is_lsb`, all of `lsb_t` and `msb_t`, (de)serialisation by `data<T>`; `packet` (fixed length)
and `packet_accessor` (variable length) with their encoders, decoders and `valid`. Values are `BitVec (8*n)` with host byte
order as a parameter; plain structures are lawful codecs; the CRC is an arbitrary function.
`Packet/Padded` has types with padding and with bit patterns that are no value: what a function returns is there a relation, since
each copy may have other padding bytes. It assumes that these bytes are some fixed bytes of the copy, and that the copy of a union
or array has the same bytes.
`Packet/Pointers` has the use of the returned pointers, with addresses and alignments; it leaves out the aliasing rule.
Left out: padding in CRC values, and what does not
compile when instantiated (the template `deserialize(array)`, `crc()`, the const `header()`/`fields()`).
Findings: static `packet::serialize(h, f)` computes the CRC from one copy of the members and returns another, so that with padding
the packet may be invalid (C27, C128); `is_lsb()` is true on every host (C22 refuted on big-endian hosts); unchecked 64-bit arithmetic in sizes
(C28, C30); a null data pointer with a non-zero size sends stale payload bytes again (C94); decoding a new
accessor can read before its storage (C95); returned pointers may be misaligned, for many types at every address (C138);
a packet that is changed through `header()` or `fields()` keeps its old CRC (C170). `Packet/Together.lean` writes any number of packets into one buffer (C171), lets packets and accessors
read each other's bytes (C172) and reads frames with another type of elements than they were written with (C173).

### `comm/observer.hpp`, `observer_static.hpp`, `observer_errors.hpp` (`Observer/`) — C32..C42, C84, C89..C91, C103..C106, C135, C136, C141..C143, C151, C152, C178, C179
Modelled: the fixed-capacity observable with callbacks that change the user's state and call back arbitrarily (`Model`; `Removal` treats the
observers that stay at the front of the list while others are removed), the unbounded one
(`Dynamic`), the same with threads and the mutex (`Threads`, `Progress`), the same without mutex and with callbacks
that call back (`Callbacks`; `agrees` proves that it coincides with `Dynamic` if they make no calls), the
compile-time list (`CompileTime`), and any number of fixed-capacity observables and observers that are constructed,
copied, assigned to and destroyed, also from inside callbacks (`World`), and the unbounded one, with and without the
mutex, with callbacks that throw, catch or let pass exceptions (`Throws`). In `World` a call on an observer that does
not exist is undefined, and a *rule* restricts what clients do; what exists and who is registered is computed from
the log of operations (`View`), independently of the members of the objects. `Unbound` is the same for
observables without a capacity, with and without the mutex; there each vector has a stamp that is new after every change, and a loop that goes on
over a vector with another stamp is undefined (an assignment of an observable to itself counts as a change). `WorldAgree` proves that `World` with one
observable and observers that exist throughout is `Model`, and `ThrowsAgree` that `Throws` without the mutex and without
exceptions is `Callbacks`. In `Callbacks` a counter stands for the validity of the iterators of a
range-based `for`: continuing a loop after a change of the vector is undefined, as the standard says, also where an
implementation would happen to work. `FixedThreads` has threads that use the fixed-capacity observable, the steps being the single
accesses to its members, with callbacks that do anything, and any synchronisation of the users'. Where threads take turns
(`InTurn`), `FixedThreadsProps` finishes what is left of the calls in progress with callbacks that follow a script, and gets a
history of `Model` for every execution; so what is proved there holds for the threads. `FixedThreadsRace` has the refutations
for threads that do not, `FixedThreadsDemo` executions. `volatile` does not make `inside` atomic.
`StaticThreads` does the same for the compile-time observable: the constructor and `notify` are programs whose steps are the
accesses to the references `obs_` and `root`; threads construct, notify and destroy, also from inside functions, and
synchronise as they like. `StaticThreadsProps` has the invariant and the main theorems, `StaticThreadsMore` that the record of accesses is
true, the order of values, and executions.
`Fatal` and `StaticFatal` have observers of the fixed-capacity and the compile-time observable that throw: every function that runs a
callback is `noexcept` there, so the program ends (C178, C179).
Left out: exceptions in the models of the fixed-capacity and the compile-time observable with threads or with several observables; `std::bad_alloc`.
Findings: removal during notification skips, repeats or calls removed observers (C36); unsubscribing in a
disconnect callback breaks `clear` (C38); `PTHREAD_MUTEX_DEFAULT` is an enumerator in glibc, so `#ifdef` compiles
the mutex out there (C40, C41; C84 assumes it is compiled in); a callback that calls back blocks forever where the
mutex exists; without it, subscribing or unsubscribing in a callback invalidates the iterators of the loop (C89),
and recursion is not detected (C91); `~observer` does not deregister, so destroying a registered observer makes the
next notification and the destructor of the observable undefined (C103); observables are implicitly copyable, and a
copy taken during a notification has `inside` set and never notifies (C104); an exception from `data` ends the
program although `notify_observers` is not `noexcept`, because `notification` is, and one from `disconnect` ends it in the
destructor (C105); after one that left `clear_observers`, observers are told twice (C106);
threads that use the fixed-capacity observable at once race, lose observers or notifications, call removed observers,
follow null pointers or write outside the array (C135); those that notify through a compile-time observable do not race there, but
enter the functions at the same time and deliver values in different orders (C152); `observer_concept` accepts every type; `observer.hpp` and `observer_static.hpp` both define
`xitren::comm::observer` and cannot be included together.

### `comm/values/*.hpp` (`Values/`) — C43..C48, C85..C87, C92, C93, C110..C114, C148..C150, C162, C163, C180, C181
Modelled: all updating operators and registrations of both `values::observable` variants (`Model`), concurrent
updates (`Threads`), update and disconnect functions that call back into a fixed-capacity observable (`Reentrant`;
`agrees` proves that it coincides with `Model` if the functions make no calls), or into a dynamic one
(`DynReentrant`, with the same counter for iterators as `Observer/Callbacks`, and its own `agrees`). Integral types
(8, 16, 32 or 64 bits): atomics wrap, plain signed arithmetic is undefined on overflow.
`Races` adds happens-before (as in `HappensBefore`): any threads update, read, register, set functions, run functions
that do all of this again, touch data and synchronise; a registration is one step of its thread. `Agree` proves that an update made step by step by one
thread is the update of `Model`, and the converse.
`Life` has any number of observables and observed objects that are constructed and destroyed, on top of `Model`; a
loop that comes to a destroyed object is undefined, and objects passed by the client must exist.
`World` has any number of observables of both kinds and observed objects whose functions may do anything with them,
construct and destroy them included; rules, views and stamps are as in `Observer/World` and `Observer/Unbound`.
`WorldAgree` and `WorldAgreeDyn` prove that with one observable and objects that exist throughout it is `Reentrant` or `DynReentrant`,
whatever the functions do.
`Replace` has functions that call `on_update` of any object, their own included, while they run, with a number for each
function object and a step "the function uses what it captured"; registrations are fixed there and updates are assignments.
`Fatal` and `DynFatal` have functions that throw, in the place of those of `Reentrant` and `DynReentrant`: all that runs them is
`noexcept`, so the program ends (C180, C181).
Left out: the `volatile` overloads (they do not compile), other types than integral ones, exceptions in the other models (likewise
`noexcept`).
Findings: postfix operators and prefix `--` send wrong values (C44); dynamic removal leaves the last element behind
(C43, C47; `DynRemoval` says for all histories what the vector holds and whom an update tells); overlapping updates leave observers out of step (C48); `notify_recursion_detected` is documented but
never returned, so recursion may be endless and objects later in the array keep the older value (C86); removal
during an update skips, repeats or tells removed objects (C87, C93); registering or clearing during an update of the
dynamic variant invalidates the iterators of its loop (C92); registrations that succeed race with updates of other threads
unless the user locks (C111);
functions overlap if several threads update (C113); `~observed` does not deregister, and a dynamic observable keeps
the pointer to the object it removed last (C114); an update inside a function leaves observed objects that come later in the list with the
older value (C150), and a removal from a visited list skips one and tells another twice (C149); a function that removes or replaces
itself with `on_update` and then uses a capture uses a destroyed object (C162).

### `comm/mediator.hpp` (`Mediator/`) — C49..C53, C96, C97, C101, C102, C132..C134, C153..C155, C164..C166
Modelled: registration and removal of modules, sending, broadcast, conversion, the manager's hook; handlers may
send from anywhere.
Assumed in C49..C51, C53: type hashes are distinct for the types in use (`C49_collision_refuted` shows the
consequence otherwise). `Mediator/Dynamic.lean` is a second model in which callbacks and the hook also construct and
destroy modules, throw and catch exceptions, and in which the hook writes to the message: `live` are the objects that
exist, reading the id of one that does not is undefined, and the loops read the count anew in each round; `thrown`
tells that an exception is on its way. Constructing an existing module, destroying or sending from one that does not
exist do nothing there, as no valid program does that. C96, C97, C101 and C102 are stated about a history variable `sent`
with what was logged before and during each message that has ended. Left out there: what is in the memory of a message
after the hook has thrown, and callbacks of modules that write to it; `Memory` has the latter. `Agree` proves that without construction, destruction, exceptions and hook writes inside callbacks
this model coincides with the first.
`Memory` is about the bytes: programs have pointers, read, write, acquire and release memory, modules override `receive`, and
the union of each `send` is an object that comes and goes. An address is a pair of object and offset, and objects are numbered
in the order in which they come into being; numbers are not used again, so that a pointer that is kept never becomes valid
again by accident. The modules are the same during a run there, and nothing throws.
`Threads` is a third model, with any number of threads: a call is a program whose steps are the single accesses to `modules_cnt_`,
`modules_` and the modules, callbacks may begin further calls and return when they like, and `HappensBefore` tells which
accesses race (`ThreadsProps`; executions in `ThreadsDemo`; `ThreadsRace` for C134 with `Apart`, which is about threads that
do not synchronise). There modules are constructed at addresses of their own, the conversion and the search for the type
are part of the step before the callback, callbacks neither throw nor write to the message, and a place of the array that is null or
was never written is `none`.
`Copies` is about the lifetimes of any number of managers and modules: construction, copies, assignment and destruction by one
thread, with the array of each manager; the theorems speak of `View`, in which a manager has the list of its modules, and
`C164_exact` ties the two. Callbacks only record that `receive` was called. Addresses may be used again, and a stale pointer
to an address where there is another module now is taken to lead to that one. `CopiesAgree` proves that this model and `Model` make
the same calls of user code, or are undefined at the same operation, for one manager whose modules are not copied.
Findings: copies of modules, which the implicit copy constructor makes whenever a module is copied or moved, are not
registered and get no messages, and a copied manager keeps pointers to modules that tell only the original when they are
destroyed (C165, C166); two messages that overlap, in two threads or because a callback sends, reach modules in different orders (C133);
`modules_[modules_cnt_++] = &c` counts a module before it enters it, so that a sender in another thread follows a pointer that
was never written, and two constructors at once lose a module (C134);
`remove_module` on a full manager writes past the array (C52); `modules_` is not initialised; a callback that
destroys the sender makes `distribute` read a destroyed object (C96), and one that destroys itself makes the loop skip
the next module (C97); a module that overrides `receive` can change what the modules after it get, but only if a module sends,
as the manager makes a copy for each (C154); an exception from one module keeps the message from those after it (C102).

### `comm/pipeline_stage.hpp`, `pipeline_stage_pool.hpp` (`Pipeline/`) — C54..C60, C77, C83, C98..C100, C107, C115..C122, C125..C127, C137, C139, C140, C144, C174, C175
Modelled: `push`, the worker, the statistics and the destructor as small-step systems. A producer takes a ticket
(`tail++`) and later stores into the slot; the worker polls (`Queue`, `Stage`); the pool's scan reads one size at a
time (`Pool`); destruction (`PoolDrain`); any number of stages whose handlers push, into the next stage, their own or
any other, also during destruction (`Net`). There a handler is a function from items to lists of pushes.
`Races` adds happens-before (vector clocks, `HappensBefore`) to a single stage: the accesses to slots and samples, what
`queue_.tail` and `closed_` order, calls of the statistics from other threads, and any synchronisation between the handler
and other threads. It assumes that user objects order like a mutex or read-modify-write atomics.
`RacesDeaf` sharpens the refutation of C77 to handlers that tell others things but do not wait for them.
`StageLife` takes a single stage with happens-before to the end of its destructor, with data that is handed over with items and
a record of what each pushing thread came after (`StageLifeProps`, concrete executions in `StageLifeDemo`). A thread does one
thing at a time there, and copying an item is not code of the user's.
`PoolRaces` does the same for the pool, with the end of the destructor (`join`), data that handlers and other threads use, and
a record of what each pushing thread came after (`PoolRacesProps`, `PoolVisible`; concrete executions in `PoolRacesDemo`).
`PoolPush` is the pool with handlers that push into it, also during destruction (`PoolPushProps`, `PoolPushDrain`);
`PoolPushAgree` proves that if handlers push nothing it reaches the states of `Pool`.
`PoolCalm` has the versions for queues that are filled any number of times without overrun.
`Late` is a single stage into which other threads push during its destruction (`LateProps`, which also proves that it can do
all that `Stage` can).
`PoolLate` is the same for a pool (`PoolLateProps`, which also proves that it can do all that `Pool` can); each of its queues
does what a `Late` stage can do, and the theorems are transferred from there. Handlers do not push in it.
`Start` is construction and destruction member by member while workers run, for both classes, with happens-before and with
thread starts that fail (`StartProps`); what members hold is not modelled there.
`Throw` and `PoolThrow` have handlers that throw, depending on what they got: the program ends there (C174, C175).
Left out: pools into which both handlers and other threads push during destruction.
Findings: slots are raced (C77; nothing orders the store of a push before the worker reads it unless another push or the
destructor follows), statistics cannot be called from outside (C107), the slots of a pool are raced likewise (C116) and its
handler runs in several workers at once (C119), after an overrun a handler may get an item
whose push does not happen before it (C118, C126), overrun loses, repeats or replaces items (C55), counters wrap at 2^64 (C54),
statistics overflow `int` (C57, C58), the pool works only for PoolSize = 8 (C59), concurrent scans choose badly
(C60), with more workers than the eight queues a worker uses a queue that does not
exist (C59, C83), what a handler pushes during destruction may go into a queue whose worker has ended (C121), a handler that
always pushes keeps the destructor from returning (C100, C122), and a push by another thread during destruction may be lost or
use a stage or pool that is gone (C137, C144; the choice of the shortest queue of a pool even prefers queues whose worker has
ended). If a pool cannot start one of its threads the program ends (C140).

### `func/interval_event.hpp` (`Interval/`) — C61..C65, C78..C80, C108, C109, C124, C145..C147, C176
Modelled: constructor, worker, `stop`, destructor and period setter as a small-step system; clock readings are
arbitrary. Sleeps may have any length, so `period_between_checks_` has no value in the model and the setter and getters
of it, `period()` and `thread()` are left out.
`Throw` has functions that throw, which ends the program (C176).
Left out: overflow of 64-bit nanoseconds (undefined; excluded in C63).
Findings: nanoseconds are compared with milliseconds (C64); `notify_one` may come after destruction (C65);
overlapping `stop()` may block forever (C62), as does `stop()` from the function itself (C79); the worker may read
members before they are initialised (C78); the period setter is unsynchronised (C80); a new period applies only from the
call after the next (C145); the schedule follows the system clock, which may be set: silence or bursts (C146); a negative
period leads to undefined overflow (C147); `std::atomic_flag{true}` relies on a libstdc++ extension.

`Interval/Races.lean` adds happens-before (`HappensBefore.lean`) to the same steps: the accesses of all threads to `period_`,
`period_between_checks_`, `stop_` and to data of the user's, `keep_running_` as an atomic (where a store cuts off the
releases before it), and objects of the user's through which threads synchronise; here the setter and getters of both
periods are steps too. `State.built` is not the code but the code with `thread_` declared last; it is used where the code as
it is always races. Left out: the accesses to the clock, the destruction of members (C65 is about it).
Findings: `thread_` is declared before the members the thread reads, so that in every execution in which the function is
called there is a data race (C78); setters race with the worker unless called by the function or after `stop()` (C80, C124);
`stop_` is not atomic (C109).

### `cache/lru.hpp`, `cache/exceptions.hpp` (`Lru/`) — C66..C69, C88, C131, C160, C161
*As-if*: the class cannot be instantiated. Modelled: `put` and `get`, with the three places that do not compile (lru.hpp:41,
70, 71) read as their evident intent; the list and the map as lists, time as an integer. `Threads` has
any number of threads, with and without the mutex, in steps of one operation on a container; a container is one place in
memory for data races, and `map_[key]` counts as a write (`ThreadsProps`). `Throws` lets each operation of `put` that can throw
(copying, comparing, hashing, allocating) throw; containers keep the guarantees of the standard, and an assignment of a key or a
value that throws leaves its target as it was. Left out: other effects of user code that runs when keys and values are
copied, compared or hashed, exceptions in `get` (it changes nothing), the messages of the exceptions, `expired_after()`.
Findings: the map never shrinks (C66), a second put keeps the old value (C68) and the old time (C88), an evicted key
cannot be put again (C69), an exception in `put` may lose the entry, evict another, double it or leave a default
in the map (C161), a hit in `get` that has not expired runs off the end of the function (C68, C88);
with glibc the mutex is compiled out, like that of the observable (C131).

### `func/argv_parser.hpp` (`Argv/`) — C70..C74, C81, C82, C167..C169
Modelled: `register_callback` (and with it `instance`), `parse`, extraction of strings and ints by streams; extraction of a
`double` is an uninterpreted function; options are value-initialised.
Findings: every token, also `argv[0]` and values, is compared with the names (C81); `parse` changes the parser
(C82); text that is no number is read as 0 without an error (C74); no text with white space can be set, only its first word
arrives (C167).

### `func/fast_pimpl.hpp` (`Pimpl/`) — C75, C76
Modelled: layout arithmetic of the validator; histories of construction, copy, move, assignment, mutation and
destruction with ghost construct/destroy events.
Findings: the forwarding constructor takes over direct copies of non-const lvalues and const rvalues; `noexcept`
is computed with braces while construction uses parentheses; the validation happens only where the destructor is
instantiated; `<cstddef>` is missing.

### `func/log_adapter.hpp`
Only a concept; nothing to model.

## Testing the theorems

`seeded/LOG.jsonl` records edits of model definitions that imitate realistic bugs, the claim each breaks and the
theorems that failed. Edits are made in a scratch copy. Two limits of this method:

* `theorems_failed` names the first theorems whose *proofs* stop checking, often a helper lemma. The property
  theorems that depend on it are listed as "no longer available". A broken proof script is evidence that the
  statement noticed the edit, not a proof that the statement became false.
* Edits were chosen by the author of the model. Entries with `"kind": "automatic"` come from a script that makes
  syntactic edits (operators, constants, negated conditions, deleted lines); survivors are analysed by hand.

## Axioms of each property theorem

Output of `#print axioms` for every theorem named in `MANIFEST.json` (names without the prefix `Verif.`).

**no axioms** (1 theorems): `Heap.C19_copies_unequal`.

**`propext`** (58 theorems): `Heap.C16_below_16_is_ub`, `Heap.C17_smallest_wrong`, `Data.C22_refuted`, `Packet.Pad.C25_any_type`, `Packet.Pad.C128_unpadded_partial`, `Observer.Seen.C33_seen`, `Observer.Cb.C89_subscribe_refuted`, `Observer.Cb.C89_unsubscribe_refuted`, `Observer.CompileTime.C42_notifies_all`, `Values.C44_refuted`, `Values.C45_refuted`, `Values.C47_refuted`, `Values.Conc.C48_refuted`, `Pipeline.C77_refuted`, `Observer.Cb.C89_unsubscribe_refuted`, `Observer.Cb.C89_subscribe_refuted`, `Observer.Cb.C89_disconnect_refuted`, `Observer.Seen.Unb.C90_seen`, `Observer.Cb.C91_endless_refuted`, `Pimpl.C76_copy_refuted`, `Values.Re.C86_clamp_refuted`, `Values.Re.C86_endless_refuted`, `Values.Re.Seen.C87_seen`, `Values.Re.C87_skip_refuted`, `Values.Re.C87_removed_refuted`, `Values.Re.Vec.C92_register_refuted`, `Values.Re.Vec.C92_clear_refuted`, `Values.Re.Seen.Unb.C93_seen`, `Values.Re.Vec.C93_leaver_refuted`, `Observer.Throw.C105_destructor_refuted`, `Observer.Throw.C106_again_refuted`, `Interval.HB.C109_stop_depends`, `Values.Life.C114_reuse_refuted`, `Packet.Pad.C128_members`, `Packet.Pad.C128_valid_iff_partial`, `Packet.Pad.C128_unpadded_partial`, `Mediator.Conc.C132_users`, `Observer.Fixed.C136_users`, `Packet.C138_elements_refuted`, `Packet.C138_fields_refuted`, `Observer.Static.C151_writes`, `Observer.Static.C151_reads`, `Observer.Static.C151_users`, `Mediator.Memory.C153_inherited`, `Mediator.Memory.C153_refuses`, `Lru.Throws.C161_refuted`, `Values.Replace.C162_once_refuted`, `Mediator.Copies.C165_refuted`, `Observer.Fatal.C178_until`, `Observer.Fatal.C178_ends`, `Observer.CompileTime.C179_ends`, `Observer.CompileTime.C179_calm`, `Observer.CompileTime.C179_returns`, `Observer.CompileTime.C179_refuted`, `Values.Re.Fatal.C180_until`, `Values.Re.Fatal.C180_ends`, `Values.Re.Vec.Fatal.C181_until`, `Values.Re.Vec.Fatal.C181_ends`.

**`Quot.sound`, `propext`** (262 theorems): `Heap.C18_overflow_refuted`, `Heap.C19_comparison`, `Data.C20_swap`, `Data.C21_read_back`, `Data.C22_layout_partial`, `Data.C22_big_endian_reversed`, `Data.C23_compare`, `Packet.Pad.C24_any_type`, `Packet.C25_round_trip`, `Packet.C26_validity`, `Packet.C27_encoders_agree_partial`, `Packet.Pad.C128_padding_refuted`, `Packet.C28_capacity_partial`, `Packet.C28_wrap_refuted`, `Packet.C30_short_refuted`, `Packet.C30_long_refuted`, `Packet.C30_short_valid_refuted`, `Packet.C31_accessor_validity`, `Packet.C31_received`, `Observer.C36_skipped_refuted`, `Observer.C36_called_twice_refuted`, `Observer.C36_called_after_removal_refuted`, `Observer.C38_unsubscribing_refuted`, `Observer.Dyn.C39_ordered_set_partial`, `Observer.Conc.C40_linearizable_partial`, `Values.C43_functions`, `Values.C43_dynamic_refuted`, `Values.C47_last_stays`, `Values.Conc.C48_some_update`, `Mediator.C49_collision_refuted`, `Pipeline.C54_counted_partial`, `Pipeline.C54_wrap_refuted`, `Pipeline.C55_first_lap_partial`, `Pipeline.C55_stale_refuted`, `Pipeline.C55_overwritten_refuted`, `Pipeline.C56_only_pushed`, `Pipeline.C57_overflow_refuted`, `Pipeline.C58_window_partial`, `Pipeline.C58_sample`, `Pipeline.C58_overflow_refuted`, `Pipeline.Pool.C59_fewer_refuted`, `Pipeline.Pool.C59_more_refuted`, `Pipeline.Pool.C59_overrun_refuted`, `Pipeline.Pool.C60_scan_refuted`, `Pipeline.HB.C77_last_refuted`, `Pipeline.HB.C77_late_partial`, `Pipeline.HB.C77_accesses`, `Pipeline.HB.C77_depends`, `Interval.C61_no_call_after_stop`, `Interval.C62_again`, `Interval.C62_overlap_refuted`, `Interval.C63_rate_limited_partial`, `Interval.C63_catches_up_partial`, `Interval.C64_first_call_partial`, `Interval.C65_destroyed_partial`, `Interval.C65_refuted`, `Interval.C78_initialised_partial`, `Interval.C78_refuted`, `Interval.HB.C78_sleep_refuted`, `Interval.C79_no_call_partial`, `Interval.C79_refuted`, `Interval.HB.C79_own_stop_races`, `Interval.C80_after_stop_partial`, `Interval.C80_refuted`, `Interval.HB.C80_members_partial`, `Interval.HB.C80_readers_partial`, `Interval.HB.C80_next_check_refuted`, `Interval.HB.C80_running_refuted`, `Interval.HB.C80_reader_refuted`, `Lru.C66_map_refuted`, `Lru.C68_value_refuted`, `Lru.C68_get_refuted`, `Argv.C70_string`, `Argv.C70_int`, `Argv.C70_double`, `Argv.C71_flag_iff`, `Argv.C72_safe`, `Argv.C72_last_ignored`, `Argv.C73_order`, `Argv.C73_permutation`, `Argv.C81_single_role_partial`, `Pipeline.Pool.C83_overflow_refuted`, `Pimpl.C75_fits`, `Pimpl.C75_array`, `Pimpl.C75_necessary`, `Pimpl.C75_strict`, `Pimpl.C76_same_values_partial`, `Pimpl.C76_terminates_refuted`, `Values.Re.Vec.C86_vector_endless_refuted`, `Packet.C94_frame_partial`, `Packet.C94_null`, `Mediator.Dyn.C96_sender_refuted`, `Mediator.Dyn.Seen.C97_seen`, `Mediator.Dyn.C97_complete`, `Mediator.Dyn.C97_skipped_refuted`, `Pipeline.C98_own_stage_safe`, `Pipeline.C98_counted_partial`, `Pipeline.C98_origin`, `Pipeline.C98_first_lap_partial`, `Pipeline.C99_safe`, `Pipeline.C99_delivers_partial`, `Pipeline.C99_order_refuted`, `Pipeline.C100_never`, `Observer.World.C103_removed_refuted`, `Observer.World.C103_destroyed_refuted`, `Observer.World.C103_assigned_refuted`, `Observer.World.C103_reuse_refuted`, `Observer.World.C104_seen`, `Observer.World.C104_own_refuted`, `Observer.World.C104_assign_refuted`, `Observer.Throw.C105_clear_partial`, `Observer.Throw.C105_completes`, `Observer.Throw.C105_terminates`, `Observer.Throw.C105_survives`, `Observer.Throw.C105_usable`, `Observer.Throw.C105_defined`, `Observer.Throw.C105_destroyed`, `Observer.Throw.C105_inside`, `Observer.Throw.C105_data_refuted`, `Observer.Throw.C106_once_partial`, `Pipeline.HB.C107_inside`, `Pipeline.HB.C107_setup`, `Pipeline.HB.C107_idle_refuted`, `Interval.HB.C108_visible`, `Interval.HB.C109_ordered_partial`, `Interval.HB.C109_refuted`, `Interval.HB.C109_second_refuted`, `Interval.HB.C109_accesses`, `Interval.HB.C109_depends`, `Values.HB.C110_no_races`, `Values.HB.C111_depends`, `Values.HB.C111_registration_races`, `Values.HB.C111_update_races`, `Values.HB.C111_on_update_races`, `Values.HB.C111_delivery_races`, `Values.HB.C111_move_races`, `Values.HB.C111_moved_races`, `Values.HB.C111_refuted`, `Values.HB.C111_locked_partial`, `Values.HB.C111_depends`, `Values.HB.C112_before`, `Values.HB.C112_earlier_refuted`, `Values.HB.C113_locked_partial`, `Values.HB.C113_refuted`, `Pipeline.Pool.HB.C115_statistics`, `Pipeline.Pool.HB.C116_race_refuted`, `Pipeline.Pool.HB.C118_accesses`, `Pipeline.Pool.HB.C118_overrun_refuted`, `Pipeline.Pool.HB.C118_accesses`, `Pipeline.Pool.HB.C118_ends`, `Pipeline.Pool.HB.C119_refuted`, `Pipeline.Pool.Push.C120_safe`, `Pipeline.Pool.Push.C120_order_partial`, `Pipeline.Pool.Push.C120_late`, `Pipeline.Pool.Push.C121_lost_refuted`, `Interval.HB.C124_next_pause_refuted`, `Interval.HB.C80_reader_refuted`, `Interval.HB.C80_members_partial`, `Interval.HB.C80_readers_partial`, `Pipeline.Life.C126_overrun_refuted`, `Pipeline.Life.C126_accesses`, `Pipeline.Life.C126_ends`, `Pipeline.Life.C127_own`, `Pipeline.Life.C127_back_races`, `Packet.Pad.C128_padding_refuted`, `Heap.Conc.C130_recorded`, `Heap.Conc.C130_users`, `Heap.Conc.C130_depends`, `Lru.Conc.C131_overfull_refuted`, `Lru.Conc.C131_accesses`, `Lru.Conc.C131_users`, `Lru.Conc.C131_depends`, `Mediator.Conc.C132_accesses`, `Mediator.Conc.C132_depends`, `Mediator.Conc.C133_overlap_refuted`, `Mediator.Conc.C133_nested_refuted`, `Mediator.Conc.C134_early_refuted`, `Mediator.Conc.C134_lost_refuted`, `Mediator.Conc.C134_gone_refuted`, `Observer.Fixed.C135_refused_refuted`, `Observer.Fixed.C135_lost_refuted`, `Observer.Fixed.C135_gone_refuted`, `Observer.Fixed.C135_null_refuted`, `Observer.Fixed.C135_overrun_refuted`, `Observer.Fixed.C136_accesses`, `Observer.Fixed.C136_depends`, `Pipeline.C137_counted_partial`, `Pipeline.C137_first_lap_partial`, `Pipeline.C137_meanwhile_partial`, `Pipeline.C137_lost_refuted`, `Pipeline.C137_undefined_refuted`, `Pipeline.C137_overrun_refuted`, `Packet.C138_exact_partial`, `Packet.C138_overaligned_refuted`, `Pipeline.Start.C139_lives`, `Pipeline.Start.C139_record`, `Pipeline.Start.C140_pool_possible_refuted`, `Observer.World.Unb.C141_changed_refuted`, `Observer.World.Unb.C141_locked_refuted`, `Observer.World.Unb.C141_reuse_refuted`, `Observer.World.Unb.C142_parts`, `Observer.World.Unb.C142_seen`, `Observer.World.Unb.C143_silent`, `Observer.World.Unb.C143_own_refuted`, `Observer.World.Unb.C143_assign_refuted`, `Pipeline.Pool.Ending.C144_meanwhile_partial`, `Pipeline.Pool.Ending.C144_lost_refuted`, `Pipeline.Pool.Ending.C144_undefined_refuted`, `Pipeline.Pool.Ending.C144_shortest_refuted`, `Pipeline.Pool.Ending.C144_overrun_refuted`, `Interval.C145_schedule_partial`, `Interval.C145_next_partial`, `Interval.C146_count_partial`, `Interval.C146_set_back_refuted`, `Interval.C147_every_check_partial`, `Interval.C147_earlier_refuted`, `Values.World.C148_remove_refuted`, `Values.World.C148_changed_refuted`, `Values.World.C149_parts`, `Values.World.C149_seen`, `Values.World.C149_skip_refuted`, `Values.World.C149_twice_refuted`, `Values.World.C150_stale_refuted`, `Values.World.C150_order_refuted`, `Observer.Static.C151_numbers`, `Observer.Static.C151_accesses`, `Observer.Static.C151_depends`, `Observer.Static.C151_observer_gone`, `Observer.Static.C152_overlap_refuted`, `Observer.Static.C152_order_refuted`, `Observer.Static.C152_nested_refuted`, `Mediator.Memory.C154_refuted`, `Mediator.Memory.C155_kept_refuted`, `Mediator.Memory.C155_released_refuted`, `Heap.Copy.C159_refuted`, `Lru.Throws.C160_kept`, `Lru.Throws.C160_agrees`, `Lru.Throws.C161_evicts`, `Lru.Throws.C161_default`, `Mediator.Copies.C166_refuted`, `Argv.C168_join_partial`, `Argv.C169_order`, `Argv.C169_unused`, `Argv.C169_ignored`, `Packet.C170_holds`, `Packet.C170_valid_iff`, `Packet.C170_restored`, `Packet.C170_only_if_blind`, `Packet.C170_refuted`, `Packet.C171_defined`, `Packet.C171_rest`, `Packet.C171_read_back`, `Packet.C171_row`, `Packet.C172_packet_reads`, `Packet.C173_no_check`, `Interval.Throw.C176_until`, `Interval.Throw.C176_ends`, `Interval.Throw.C176_last`, `Interval.Throw.C176_after_stop`, `Interval.Throw.C176_refuted`, `Values.Re.Vec.Fatal.C181_exact`, `Values.Re.Vec.Fatal.C181_refuted`.

**`Classical.choice`, `Quot.sound`, `propext`** (350 theorems): `Heap.C01_safe_and_terminating`, `Heap.C02_inside_and_aligned`, `Heap.C03_disjoint`, `Heap.C04_contents_preserved`, `Heap.C05_free_size_exact`, `Heap.C06_all_freed_restores`, `Heap.C07_low_water_mark`, `Heap.C08_bad_requests_fail`, `Heap.C09_callback`, `Heap.C10_first_fit`, `Heap.C11_callocate`, `Heap.C12_double_free`, `Heap.C13_alloc_free_identity`, `Heap.C14_free_monotone`, `Heap.C15_address_independent`, `Heap.C16_tiny_heap`, `Heap.C17_statistics_partial`, `Heap.C18_enough_or_throws_partial`, `Heap.C18_throws_iff`, `Heap.C19_interchangeable_partial`, `Data.C24_data`, `Packet.C29_round_trip`, `Packet.Pad.C29_any_type`, `Packet.C30_memory_safe_partial`, `Observer.C32_ordered_set`, `Observer.C33_notify_each_once`, `Observer.C34_recursion_detected`, `Observer.C35_memory_safe`, `Observer.C36_calls_partial`, `Observer.C36_front_partial`, `Observer.C36_once_partial`, `Observer.C36_last_may_remove_partial`, `Observer.C37_added_next_time`, `Observer.C38_clear_partial`, `Observer.C38_front_partial`, `Observer.World.Unb.C142_rounds`, `Observer.World.Unb.C142_reports`, `Observer.Conc.C40_unlocked_refuted`, `Observer.Conc.C41_blocks_forever_partial`, `Observer.Conc.C41_unlocked_refuted`, `Values.C43_assign_partial`, `Values.C43_dynamic`, `Values.C44_track_partial`, `Values.C44_dynamic`, `Values.C44_others`, `Values.C45_undefined_iff_partial`, `Values.C46_stays_removed`, `Values.C47_removal_partial`, `Values.C47_exact`, `Values.C47_silent_iff`, `Values.C47_never_shorter`, `Values.Conc.C48_in_step_partial`, `Mediator.C49_delivery`, `Mediator.C49_every_message`, `Mediator.C50_intact`, `Mediator.C50_size`, `Mediator.C50_convert`, `Mediator.C51_broadcast`, `Mediator.C52_registration_partial`, `Mediator.C52_one_more`, `Mediator.C52_refuted`, `Mediator.C53_hook_first`, `Pipeline.C55_tame_partial`, `Pipeline.C57_drains_partial`, `Pipeline.Pool.C59_counted_partial`, `Pipeline.Pool.C59_exactly_once_partial`, `Pipeline.Pool.C59_calm_partial`, `Pipeline.Pool.C60_choice`, `Pipeline.Pool.C60_minimal_partial`, `Pipeline.Pool.C60_long_refuted`, `Pipeline.C77_handover_partial`, `Pipeline.HB.C77_deaf_refuted`, `Interval.C62_returns_partial`, `Interval.C63_undefined_iff`, `Interval.C64_refuted`, `Interval.HB.C78_every_call_races`, `Lru.C66_bounded_partial`, `Lru.C67_evicts_oldest`, `Lru.C68_stores_partial`, `Lru.C69_put_partial`, `Lru.C69_evicted_refuted`, `Lru.C88_expired_partial`, `Lru.C88_get_exact`, `Lru.C88_renewed_refuted`, `Argv.C70_word`, `Argv.C74_round_trip`, `Argv.C74_reads`, `Argv.C74_plus`, `Argv.C74_not_a_number`, `Argv.C74_blank`, `Argv.C81_refuted`, `Argv.C82_given_partial`, `Argv.C82_refuted`, `Pipeline.Pool.C83_ends_partial`, `Observer.Cb.C89_callbacks_partial`, `Observer.Cb.C89_defined_only_if`, `Observer.Cb.C90_each_once`, `Observer.Cb.C91_returns_partial`, `Observer.Conc.C84_calls_return`, `Pimpl.C76_balanced`, `Pimpl.C76_all_destroyed`, `Values.Re.C85_memory_safe`, `Values.Re.Seen.C85_disconnects`, `Values.Re.C86_in_step_partial`, `Values.Re.Vec.C86_vector_in_step_partial`, `Values.Re.C87_once_partial`, `Values.Re.C87_front_partial`, `Values.Re.Vec.C92_callbacks_partial`, `Values.Re.Vec.C92_defined_only_if`, `Values.Re.Vec.C93_once_partial`, `Packet.C94_stale_refuted`, `Packet.C95_default_partial`, `Packet.C95_decode_refuted`, `Mediator.Dyn.C96_safe_partial`, `Mediator.Dyn.C96_registered`, `Mediator.Dyn.C97_sent`, `Mediator.Dyn.C97_recorded`, `Mediator.Dyn.C97_at_most_once`, `Mediator.Dyn.C97_exactly_once_partial`, `Mediator.Dyn.C97_everybody_partial`, `Pipeline.C98_calm_partial`, `Pipeline.C99_calm_partial`, `Pipeline.C100_calm_partial`, `Pipeline.C100_first_lap_partial`, `Mediator.Dyn.C101_written`, `Mediator.Dyn.C101_same`, `Mediator.Dyn.C101_intact`, `Mediator.Dyn.C101_sender`, `Mediator.Dyn.C102_cut`, `Mediator.Dyn.C102_prefix`, `Mediator.Dyn.C102_reaches_sender`, `Mediator.Dyn.C102_registered`, `Mediator.Dyn.C102_others_refuted`, `Observer.World.C103_safe_partial`, `Observer.World.C103_alive_partial`, `Observer.World.C103_registered_ub`, `Observer.World.C104_added`, `Observer.World.C104_reports`, `Observer.World.C104_add`, `Observer.World.C104_own_partial`, `Observer.World.C104_copy_tells`, `Observer.World.C104_copy_disconnects`, `Observer.World.C104_assign_silent`, `Observer.World.C104_mute`, `Pipeline.HB.C107_rendezvous_partial`, `Interval.HB.C108_again_partial`, `Values.HB.C110_accesses`, `Values.HB.C110_depends`, `Values.HB.C111_refused_partial`, `Values.HB.C110_accesses`, `Values.HB.C110_depends`, `Values.HB.C112_value`, `Values.HB.C112_observed`, `Values.HB.C112_message`, `Values.HB.C113_one_thread_partial`, `Values.HB.C113_data_partial`, `Values.Life.C114_safe_partial`, `Values.Life.C114_told_partial`, `Values.Life.C114_registered_ub`, `Values.Life.C114_dynamic_ub`, `Pipeline.Pool.HB.C116_last_refuted`, `Pipeline.Pool.HB.C116_late_partial`, `Pipeline.Pool.HB.C116_joined_partial`, `Pipeline.Pool.HB.C118_depends`, `Pipeline.Pool.HB.C117_handlers`, `Pipeline.Pool.HB.C117_data`, `Pipeline.Pool.HB.C117_pushes`, `Pipeline.Pool.HB.C118_visible`, `Pipeline.Pool.HB.C118_items_partial`, `Pipeline.Pool.HB.C118_depends`, `Pipeline.Pool.HB.C119_one_worker_partial`, `Pipeline.Pool.Push.C120_ended`, `Pipeline.Pool.Push.C120_order_calm_partial`, `Pipeline.Pool.Push.C121_accounted_partial`, `Pipeline.Pool.Push.C121_settled_partial`, `Pipeline.Pool.Push.C121_accounted_calm_partial`, `Pipeline.Pool.Push.C121_settled_calm_partial`, `Pipeline.Pool.Push.C122_endless`, `Pipeline.Pool.Push.C122_ends_partial`, `Pipeline.Pool.Push.C122_ends_calm_partial`, `Heap.C123_aligned_partial`, `Heap.C123_overaligned_refuted`, `Interval.HB.C124_running_refuted`, `Pipeline.Life.C125_handlers`, `Pipeline.Life.C125_data`, `Pipeline.Life.C125_pushes`, `Pipeline.Life.C126_visible`, `Pipeline.Life.C126_items_partial`, `Pipeline.Life.C127_handed_over`, `Heap.Conc.C129_same_block`, `Heap.Conc.C129_race`, `Heap.Conc.C130_no_race`, `Heap.Conc.C130_goes_on`, `Heap.Conc.C130_one_after_another`, `Heap.Conc.C130_blocks`, `Heap.Conc.C130_accesses`, `Heap.Conc.C130_writes`, `Lru.Conc.C131_no_race_partial`, `Lru.Conc.C131_one_after_another_partial`, `Lru.Conc.C131_recorded`, `Lru.Conc.C131_goes_on_partial`, `Lru.Conc.C131_bounded_partial`, `Lru.Conc.C131_race_refuted`, `Mediator.Conc.C132_no_race`, `Mediator.Conc.C132_goes_on`, `Mediator.Conc.C132_sent`, `Mediator.Conc.C132_cast`, `Mediator.Conc.C132_registered`, `Mediator.Conc.C132_recorded`, `Mediator.Conc.C132_writes`, `Mediator.Conc.C133_order_partial`, `Mediator.Conc.C132_no_race`, `Mediator.Conc.C132_goes_on`, `Mediator.Conc.C134_race_refuted`, `Observer.Fixed.C136_no_race`, `Observer.Fixed.C136_goes_on`, `Observer.Fixed.C135_race_refuted`, `Observer.Fixed.C136_no_race`, `Observer.Fixed.C136_goes_on`, `Observer.Fixed.C136_as_one_thread`, `Observer.Fixed.C136_results`, `Observer.Fixed.C136_call`, `Observer.Fixed.C136_each_once`, `Observer.Fixed.C136_clear`, `Observer.Fixed.C136_writes`, `Pipeline.C137_tame_partial`, `Packet.C138_aligned_partial`, `Pipeline.Start.C139_stage`, `Pipeline.Start.C139_pool`, `Pipeline.Start.C140_stage`, `Pipeline.Start.C140_pool_partial`, `Pipeline.Start.C140_pool_refuted`, `Observer.World.Unb.C141_safe_partial`, `Observer.World.Unb.C141_alive_partial`, `Observer.World.Unb.C141_registered_ub`, `Observer.World.Unb.C141_unchanged`, `Observer.World.Unb.C142_rounds`, `Observer.World.Unb.C142_only`, `Observer.World.Unb.C142_reports`, `Observer.World.Unb.C142_removed`, `Observer.World.Unb.C143_added`, `Observer.World.Unb.C143_own_partial`, `Observer.World.Unb.C143_copy_tells`, `Pipeline.Pool.Ending.C144_counted_partial`, `Pipeline.Pool.Ending.C144_first_lap_partial`, `Pipeline.Pool.Ending.C144_calm_partial`, `Pipeline.Pool.Ending.C144_accounted_partial`, `Pipeline.Pool.Ending.C144_accounted_calm_partial`, `Interval.C145_old_period_refuted`, `Interval.C145_early_refuted`, `Interval.C145_late_refuted`, `Interval.C146_set_forward_refuted`, `Interval.C147_negative_refuted`, `Values.World.C148_safe_partial`, `Values.World.C148_alive_partial`, `Values.World.C148_registered_ub`, `Values.World.C149_updates_partial`, `Values.World.C149_ends_partial`, `Values.World.C149_reports_partial`, `Values.World.C149_once_partial`, `Values.World.C149_added_partial`, `Values.World.C149_removed_partial`, `Values.World.C150_look_partial`, `Values.World.C150_read_partial`, `Values.World.C150_current_partial`, `Values.World.C150_chain_partial`, `Observer.Static.C151_no_race`, `Observer.Static.C151_goes_on`, `Observer.Static.C151_ends`, `Observer.Static.C151_tells`, `Observer.Static.C151_only`, `Observer.Static.C151_unsynchronised`, `Observer.Static.C152_order_partial`, `Observer.Static.C152_deep_refuted`, `Mediator.Memory.C153_calls`, `Mediator.Memory.C153_casts`, `Mediator.Memory.C153_data`, `Mediator.Memory.C153_next`, `Mediator.Memory.C153_left`, `Mediator.Memory.C153_send`, `Mediator.Memory.C153_raw`, `Mediator.Memory.C153_cast`, `Mediator.Memory.C154_manager`, `Mediator.Memory.C154_intact_partial`, `Mediator.Memory.C155_safe_partial`, `Mediator.Memory.C155_stays`, `Mediator.Memory.C155_dangling`, `Heap.Fail.C156_heap`, `Heap.Fail.C156_calls`, `Heap.Fail.C157_full_partial`, `Heap.Fail.C157_released_refuted`, `Heap.Fail.C158_safe_partial`, `Heap.Fail.C158_ends_partial`, `Heap.Fail.C158_again`, `Heap.Fail.C158_replaced`, `Heap.Fail.C158_again_refuted`, `Heap.Fail.C158_replaced_refuted`, `Heap.Copy.C159_alone_partial`, `Heap.Copy.C159_same`, `Lru.Throws.C161_unchanged_partial`, `Lru.Throws.C161_lost`, `Lru.Throws.C161_twice`, `Values.Replace.C162_exact`, `Values.Replace.C162_careful`, `Values.Replace.C162_outside`, `Values.Replace.C163_called`, `Values.Replace.C163_only`, `Values.Replace.C163_read`, `Values.Replace.C163_round`, `Mediator.Copies.C164_exact`, `Mediator.Copies.C164_safe`, `Mediator.Copies.C164_who`, `Mediator.Copies.C164_outlived`, `Mediator.Copies.C165_silent`, `Mediator.Copies.C165_dies`, `Mediator.Copies.C165_sends`, `Mediator.Copies.C165_moved`, `Mediator.Copies.C166_same_partial`, `Mediator.Copies.C166_dangling`, `Mediator.Copies.C166_later`, `Mediator.Copies.C166_assigned`, `Argv.C167_round_trip_partial`, `Argv.C167_only`, `Argv.C167_refuted`, `Argv.C168_again`, `Argv.C168_refuted`, `Packet.C172_accessor_reads`, `Packet.C173_elements`, `Pipeline.Throw.C174_until`, `Pipeline.Throw.C174_ends`, `Pipeline.Throw.C174_lost_partial`, `Pipeline.Throw.C174_joined_partial`, `Pipeline.Throw.C174_inevitable_partial`, `Pipeline.Throw.C174_refuted`, `Pipeline.Pool.Throw.C175_until`, `Pipeline.Pool.Throw.C175_ends`, `Pipeline.Pool.Throw.C175_lost_partial`, `Pipeline.Pool.Throw.C175_joined_partial`, `Pipeline.Pool.Throw.C175_refuted`, `Heap.Vectors.C177_push`, `Heap.Vectors.C177_throws`, `Heap.Vectors.C177_others`, `Heap.Vectors.C177_readable`, `Heap.Vectors.C177_restored`, `Observer.Fatal.C178_told_partial`, `Observer.Fatal.C178_cleared_partial`, `Observer.Fatal.C178_exact`, `Observer.Fatal.C178_refuted`, `Values.Re.Fatal.C180_exact`, `Values.Re.Fatal.C180_refuted`.
