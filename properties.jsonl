{"id": "C01", "title": "Heap operations are memory-safe and terminate", "statement": "On a static_heap whose usable area holds at least one block (Size >= 32 plus alignment padding), every call of allocate, callocate and deallocate made by a client that only frees live pointers (or nullptr) and only writes inside live blocks returns, and never reads or writes memory outside the heap's own storage or at a misaligned address.", "quantifier": "every heap size, every address and alignment of the heap object, and every finite history of allocate / callocate / deallocate / reset calls mixed with arbitrary writes into live blocks", "why_tests_cant": "A free-list walk can loop or leave the buffer only for particular fragmentation histories; tests sample a handful of histories at one size.", "anchors": ["include/xitren/allocators/static_heap.hpp:allocate", "include/xitren/allocators/static_heap.hpp:deallocate", "include/xitren/allocators/static_heap.hpp:prv_insert_block_into_free_list", "include/xitren/allocators/static_heap.hpp:static_heap()"]}
{"id": "C02", "title": "Returned blocks lie inside the heap and are 8-aligned", "statement": "Every non-null pointer p returned by allocate(n) is a multiple of 8 and the n bytes starting at p lie inside the heap's buffer.", "quantifier": "every heap size, every address and alignment of the heap object, and every finite history of allocate / callocate / deallocate / reset calls mixed with arbitrary writes into live blocks; every n", "why_tests_cant": "Depends on every possible fragmentation and base address; tests use one base address.", "anchors": ["include/xitren/allocators/static_heap.hpp:allocate"]}
{"id": "C03", "title": "Live blocks never overlap", "statement": "At every point of every history the byte ranges [p, p+n) of any two distinct live allocations are disjoint.", "quantifier": "every heap size, every address and alignment of the heap object, and every finite history of allocate / callocate / deallocate / reset calls mixed with arbitrary writes into live blocks", "why_tests_cant": "Overlap only needs one bad split or merge in one history.", "anchors": ["include/xitren/allocators/static_heap.hpp:allocate", "include/xitren/allocators/static_heap.hpp:deallocate"]}
{"id": "C04", "title": "Contents of a live block are preserved", "statement": "No allocate, callocate, deallocate or bookkeeping call ever changes a byte of a block that is live before and after the call; a byte read back from a live block is the last byte the client wrote there.", "quantifier": "every heap size, every address and alignment of the heap object, and every finite history of allocate / callocate / deallocate / reset calls mixed with arbitrary writes into live blocks", "why_tests_cant": "Corruption by header writes depends on layout; tests never compare contents across arbitrary histories.", "anchors": ["include/xitren/allocators/static_heap.hpp:allocate", "include/xitren/allocators/static_heap.hpp:deallocate", "include/xitren/allocators/static_heap.hpp:callocate", "include/xitren/allocators/static_heap.hpp:prv_insert_block_into_free_list"]}
{"id": "C05", "title": "free_heap_size is exact", "statement": "free_heap_size() always equals the initial free size minus the sum of the sizes of the blocks held by live allocations, where the block held for a request of n bytes is a multiple of 8, at least n+16 and at most n+55 bytes; it never wraps.", "quantifier": "every heap size, every address and alignment of the heap object, and every finite history of allocate / callocate / deallocate / reset calls mixed with arbitrary writes into live blocks", "why_tests_cant": "Accounting drift accumulates over histories longer than a test runs.", "anchors": ["include/xitren/allocators/static_heap.hpp:free_heap_size", "include/xitren/allocators/static_heap.hpp:allocate", "include/xitren/allocators/static_heap.hpp:deallocate"]}
{"id": "C06", "title": "Freeing everything restores the heap", "statement": "When every live block has been deallocated, in any order, the heap is again one contiguous free block: free_heap_size() is the initial value and, when the initial value exceeds 16, allocate of (initial value - 16) bytes succeeds.", "quantifier": "every heap size, every address and alignment of the heap object, and every finite history of allocate / callocate / deallocate / reset calls mixed with arbitrary writes into live blocks; every order of frees", "why_tests_cant": "Coalescing bugs leave fragments for only some of the n! free orders.", "anchors": ["include/xitren/allocators/static_heap.hpp:prv_insert_block_into_free_list", "include/xitren/allocators/static_heap.hpp:deallocate"]}
{"id": "C07", "title": "minimum_ever_free_heap_size is the low-water mark", "statement": "minimum_ever_free_heap_size() is the minimum of free_heap_size() over all moments since construction or the last reset_minimum_ever_free_heap_size().", "quantifier": "every heap size, every address and alignment of the heap object, and every finite history of allocate / callocate / deallocate / reset calls mixed with arbitrary writes into live blocks", "why_tests_cant": "A missed update shows only when the minimum occurs at that point of a history.", "anchors": ["include/xitren/allocators/static_heap.hpp:minimum_ever_free_heap_size", "include/xitren/allocators/static_heap.hpp:reset_minimum_ever_free_heap_size", "include/xitren/allocators/static_heap.hpp:allocate"]}
{"id": "C08", "title": "Zero and overflowing requests fail cleanly", "statement": "allocate(0), and allocate(n) for any n whose size with header and padding overflows size_t or sets its top bit, return nullptr and change nothing but the failure callback.", "quantifier": "every reachable heap and every 64-bit n", "why_tests_cant": "Wrap-around boundaries are 2^63 and 2^64; tests use small sizes.", "anchors": ["include/xitren/allocators/static_heap.hpp:allocate", "include/xitren/allocators/static_heap.hpp:heap_add_will_overflow", "include/xitren/allocators/static_heap.hpp:heap_block_size_is_valid"]}
{"id": "C09", "title": "The failure callback fires exactly on failure", "statement": "allocate invokes the callback registered with on_fail exactly once when it returns nullptr and not at all when it returns a block; without a registered callback nothing is invoked.", "quantifier": "every reachable heap, every n, callback registered or not", "why_tests_cant": "Needs both directions for every state.", "anchors": ["include/xitren/allocators/static_heap.hpp:on_fail", "include/xitren/allocators/static_heap.hpp:allocate"]}
{"id": "C10", "title": "Allocation is complete first fit", "statement": "allocate(n) with n>0 succeeds exactly when some maximal gap between live blocks can hold n+16 bytes rounded up to 8, and it then returns the block at the lowest such address.", "quantifier": "every heap size, every address and alignment of the heap object, and every finite history of allocate / callocate / deallocate / reset calls mixed with arbitrary writes into live blocks; every n", "why_tests_cant": "Completeness (no spurious failure) and lowest-address choice range over all fragmentation patterns.", "anchors": ["include/xitren/allocators/static_heap.hpp:allocate"]}
{"id": "C11", "title": "callocate returns zeroed memory and rejects overflow", "statement": "callocate(k,s) either returns nullptr or a block of k*s bytes that are all zero; if k*s overflows size_t it returns nullptr and leaves the heap unchanged.", "quantifier": "every reachable heap, every pair of 64-bit k, s", "why_tests_cant": "Overflow boundary spans 2^128 argument pairs.", "anchors": ["include/xitren/allocators/static_heap.hpp:callocate", "include/xitren/allocators/static_heap.hpp:heap_multiply_will_overflow"]}
{"id": "C12", "title": "Double free is harmless until memory is reused", "statement": "Deallocating a pointer a second time, with any number of other deallocations but no successful allocation in between, changes nothing.", "quantifier": "every heap size, every address and alignment of the heap object, and every finite history of allocate / callocate / deallocate / reset calls mixed with arbitrary writes into live blocks", "why_tests_cant": "Depends on how the stale header was merged by the intervening frees.", "anchors": ["include/xitren/allocators/static_heap.hpp:deallocate", "include/xitren/allocators/static_heap.hpp:heap_block_is_allocated"]}
{"id": "C13", "title": "allocate then deallocate is the identity", "statement": "Deallocating the block just returned by allocate restores free_heap_size() and the set of free gaps, so every later sequence of calls returns the same pointers and sizes (low-water mark aside) as if the pair had not happened.", "quantifier": "every heap size, every address and alignment of the heap object, and every finite history of allocate / callocate / deallocate / reset calls mixed with arbitrary writes into live blocks; every continuation", "why_tests_cant": "Behavioural equivalence over all continuations cannot be tested.", "anchors": ["include/xitren/allocators/static_heap.hpp:allocate", "include/xitren/allocators/static_heap.hpp:deallocate"]}
{"id": "C14", "title": "Freeing never hurts", "statement": "If allocate(n) would succeed now, it still succeeds after any live block is deallocated, and free_heap_size() grows.", "quantifier": "every heap size, every address and alignment of the heap object, and every finite history of allocate / callocate / deallocate / reset calls mixed with arbitrary writes into live blocks; every live block; every n", "why_tests_cant": "Monotonicity over all states.", "anchors": ["include/xitren/allocators/static_heap.hpp:deallocate", "include/xitren/allocators/static_heap.hpp:allocate"]}
{"id": "C15", "title": "Behaviour does not depend on where the heap object lives", "statement": "Two heaps of the same Size at any two addresses with the same alignment residue return, for the same history, blocks at the same offsets and report the same sizes.", "quantifier": "every pair of base addresses, every history", "why_tests_cant": "Tests run at whatever addresses the loader chose.", "anchors": ["include/xitren/allocators/static_heap.hpp:static_heap()", "include/xitren/allocators/static_heap.hpp:heap_protect_block_pointer"]}
{"id": "C16", "title": "Degenerate heaps fail closed", "statement": "A heap too small to hold a block (usable size 16..31) constructs without leaving its buffer and every allocation on it returns nullptr.", "quantifier": "every Size, every base address, every request sequence", "why_tests_cant": "Tests use sizes 256 and above.", "anchors": ["include/xitren/allocators/static_heap.hpp:static_heap()"]}
{"id": "C17", "title": "Reported heap statistics match the free list", "statement": "The statistics call reports the number, largest and smallest size of the free blocks and totals consistent with free_heap_size().", "quantifier": "every heap size, every address and alignment of the heap object, and every finite history of allocate / callocate / deallocate / reset calls mixed with arbitrary writes into live blocks", "why_tests_cant": "Ranges over all fragmentation states.", "anchors": ["include/xitren/allocators/static_heap.hpp:v_port_get_heap_stats"]}
{"id": "C18", "title": "Allocator adaptor gives enough memory or throws", "statement": "static_heap_allocator<T>::allocate(n) either throws bad_alloc or returns a block of at least n*sizeof(T) bytes.", "quantifier": "every reachable heap, every n, every sizeof(T)", "why_tests_cant": "n*sizeof(T) wraps only for huge n.", "anchors": ["include/xitren/allocators/static_heap_allocator.hpp:allocate"]}
{"id": "C19", "title": "Allocator equality implies interchangeability, and copies share the heap", "statement": "If two allocators compare equal, or one was copied or rebound from the other, memory obtained from one can be released through the other and goes back to the same heap; a copy compares equal to its source.", "quantifier": "every allocator pair and history", "why_tests_cant": "Universally quantified over copies and histories.", "anchors": ["include/xitren/allocators/static_heap_allocator.hpp:operator==", "include/xitren/allocators/static_heap_allocator.hpp:static_heap_allocator", "include/xitren/allocators/static_heap_allocator.hpp:deallocate"]}
{"id": "C20", "title": "swap reverses bytes and is an involution", "statement": "swap on 16, 32 and 64 bit integers reverses the byte order of the value, and swapping twice gives the value back.", "quantifier": "every value of each width, either host byte order", "why_tests_cant": "2^64 values.", "anchors": ["include/xitren/func/data.hpp:swap"]}
{"id": "C21", "title": "lsb_t and msb_t read back what was stored", "statement": "get() returns the last value given to the constructor or operator=, on any host.", "quantifier": "every value, width and host byte order", "why_tests_cant": "2^64 values; tests run on one host.", "anchors": ["include/xitren/func/data.hpp:lsb_t", "include/xitren/func/data.hpp:msb_t"]}
{"id": "C22", "title": "lsb_t and msb_t have a fixed wire layout", "statement": "In memory an lsb_t<T> is the little-endian and an msb_t<T> the big-endian encoding of its value, whatever the byte order of the host.", "quantifier": "every value, width and host byte order", "why_tests_cant": "No test runs on a big-endian host.", "anchors": ["include/xitren/func/data.hpp:is_lsb", "include/xitren/func/data.hpp:lsb_t", "include/xitren/func/data.hpp:msb_t"]}
{"id": "C23", "title": "Comparison of lsb_t and msb_t is numeric", "statement": "==, <, >, <=, >= on two lsb_t (or msb_t) values give the result of comparing the numbers they hold.", "quantifier": "every pair of values, width and host byte order", "why_tests_cant": "2^128 pairs.", "anchors": ["include/xitren/func/data.hpp:lsb_t", "include/xitren/func/data.hpp:msb_t"]}
{"id": "C24", "title": "data<T> encodes and decodes faithfully", "statement": "deserialize(serialize(v)) = v; serialize into an iterator writes exactly sizeof(T) bytes and leaves every other byte alone; deserialize depends on exactly the first sizeof(T) bytes.", "quantifier": "every trivially copyable T, value, buffer and offset", "why_tests_cant": "All values and buffers.", "anchors": ["include/xitren/func/data.hpp:data"]}
{"id": "C25", "title": "A packet built from header and fields is valid and decodes back", "statement": "For every header and fields, packet(h,f).valid() holds, and packet(packet(h,f).to_array()) has the same header and fields and is valid.", "quantifier": "every header type, field type, CRC function and value", "why_tests_cant": "All values and any CRC.", "anchors": ["include/xitren/func/packet.hpp:packet"]}
{"id": "C26", "title": "Packet validity is exactly the CRC check", "statement": "A packet read from a byte array is valid iff its trailing CRC bytes equal the CRC of the preceding bytes; altering only the CRC field, or altering header/fields to bytes with a different CRC, makes it invalid.", "quantifier": "every byte array and every CRC function", "why_tests_cant": "All corruptions.", "anchors": ["include/xitren/func/packet.hpp:valid", "include/xitren/func/packet.hpp:packet(InputIterator)"]}
{"id": "C27", "title": "All packet encoders agree", "statement": "The static serialize(h,f), packet(h,f).to_array() and serialize(packet, it) write the same bytes, and deserialize(it) inverts serialize(packet, it).", "quantifier": "every header, fields, packet value, CRC function and buffer", "why_tests_cant": "All values.", "anchors": ["include/xitren/func/packet.hpp:serialize", "include/xitren/func/packet.hpp:deserialize"]}
{"id": "C28", "title": "packet_accessor::serialize respects its capacity", "statement": "serialize returns true exactly when header, fields, size elements and CRC fit in Max bytes; when it returns false the accessor is unchanged, and it never writes outside its storage.", "quantifier": "every header, fields, element size, 64-bit element count, data (possibly null) and Max", "why_tests_cant": "64-bit element counts include wrapping ones.", "anchors": ["include/xitren/func/packet.hpp:packet_accessor::serialize"]}
{"id": "C29", "title": "packet_accessor round-trips", "statement": "After serialize returned true for non-null data, deserialize of the same types reports valid, the same header, fields and element count, and a data pointer to exactly the given elements, and size() is the encoded length.", "quantifier": "every header, fields, data, element type, CRC and Max", "why_tests_cant": "All payload lengths and contents.", "anchors": ["include/xitren/func/packet.hpp:packet_accessor::serialize", "include/xitren/func/packet.hpp:packet_accessor::deserialize"]}
{"id": "C30", "title": "packet_accessor::deserialize is memory-safe on any received frame", "statement": "For any stored bytes and any size set with size(n), deserialize reads only inside the storage; a length that is not header+fields+CRC plus a whole number of elements is reported invalid.", "quantifier": "every storage content, every n", "why_tests_cant": "All received lengths including short and oversized ones.", "anchors": ["include/xitren/func/packet.hpp:packet_accessor::deserialize", "include/xitren/func/packet.hpp:packet_accessor::size"]}
{"id": "C31", "title": "packet_accessor validity is exactly the CRC check", "statement": "For frames of acceptable length deserialize reports valid iff the CRC of all bytes before the trailer equals the trailer; deserialize_no_check returns the same header, fields, count and data position.", "quantifier": "every storage content and length", "why_tests_cant": "All frames.", "anchors": ["include/xitren/func/packet.hpp:packet_accessor::deserialize", "include/xitren/func/packet.hpp:packet_accessor::deserialize_no_check"]}
{"id": "C32", "title": "Fixed-capacity observable is an ordered set", "statement": "After any history the registered observers are those added and not since removed or cleared, in order of subscription, without duplicates and never more than Max; add returns ok / already_contains / list_is_full and remove ok / not_found accordingly, and failing calls change nothing.", "quantifier": "every Max, every history of add / remove / clear / notify", "why_tests_cant": "All histories.", "anchors": ["include/xitren/comm/observer.hpp:observable<T,true,Max>"]}
{"id": "C33", "title": "Notification reaches each observer exactly once, in order", "statement": "notify_observers(v) calls every registered observer exactly once, in subscription order, with v and this observable as source, calls no one else and returns ok, provided observers do not modify the subscription list while being notified.", "quantifier": "every Max, history, value", "why_tests_cant": "All histories.", "anchors": ["include/xitren/comm/observer.hpp:notify_observers"]}
{"id": "C34", "title": "Recursive notification is detected", "statement": "A notify_observers call made from inside an observer's callback returns notify_recursion_detected and delivers nothing; when the outer call returns, notification works again.", "quantifier": "every handler behaviour (arbitrary calls back into the observable), every history", "why_tests_cant": "All handler behaviours.", "anchors": ["include/xitren/comm/observer.hpp:notify_observers"]}
{"id": "C35", "title": "Re-entrant changes are memory-safe", "statement": "Whatever add / remove / clear / notify calls the observers make while being notified, notify_observers never reads outside its array and never calls through a null pointer, and the subscription list stays a duplicate-free list within capacity.", "quantifier": "every handler behaviour, every history", "why_tests_cant": "All handler behaviours.", "anchors": ["include/xitren/comm/observer.hpp:notify_observers", "include/xitren/comm/observer.hpp:add_observer", "include/xitren/comm/observer.hpp:remove_observer"]}
{"id": "C36", "title": "Unsubscribing during notification does not affect others", "statement": "If an observer unsubscribes itself (or another) while being notified, every observer that stays registered is still notified exactly once and no removed observer is called afterwards.", "quantifier": "every handler behaviour that removes observers, every history", "why_tests_cant": "All handler behaviours.", "anchors": ["include/xitren/comm/observer.hpp:notify_observers", "include/xitren/comm/observer.hpp:remove_observer"]}
{"id": "C37", "title": "Subscribing during notification takes effect next time", "statement": "Observers added by callbacks during a notification are not called in that notification, all observers registered at its start are called exactly once, and the new ones are called by the next one.", "quantifier": "every handler behaviour that only adds or re-notifies", "why_tests_cant": "All handler behaviours.", "anchors": ["include/xitren/comm/observer.hpp:notify_observers", "include/xitren/comm/observer.hpp:add_observer"]}
{"id": "C38", "title": "Clearing disconnects everyone once", "statement": "clear_observers() and destruction call disconnect exactly once on each registered observer, in order, and leave no subscription.", "quantifier": "every history", "why_tests_cant": "All histories.", "anchors": ["include/xitren/comm/observer.hpp:clear_observers", "include/xitren/comm/observer.hpp:~observable"]}
{"id": "C39", "title": "Unbounded observable is an ordered set", "statement": "observable<T,false> behaves as an ordered duplicate-free set: add throws already_contains exactly on duplicates, remove throws not_found exactly on absentees, throwing calls change nothing, notify calls each registered observer exactly once in order.", "quantifier": "every history", "why_tests_cant": "All histories.", "anchors": ["include/xitren/comm/observer.hpp:observable<T,false,Size>"]}
{"id": "C40", "title": "Unbounded observable is linearizable", "statement": "Under any interleaving of any number of threads, concurrent add / remove / clear / notify calls have the same effects, results and callback sequences as the same calls executed one at a time in some order consistent with each thread's program order.", "quantifier": "every number of threads, every program, every schedule", "why_tests_cant": "Schedules.", "anchors": ["include/xitren/comm/observer.hpp:observable<T,false,Size>"]}
{"id": "C41", "title": "Calls from callbacks of the locked observable never complete", "statement": "A call into the same observable<T,false> from inside one of its callbacks blocks that thread and every other caller forever: no schedule lets any of them return.", "quantifier": "every schedule, every set of other threads", "why_tests_cant": "Schedules.", "anchors": ["include/xitren/comm/observer.hpp:observable<T,false,Size>"]}
{"id": "C42", "title": "Compile-time observable notifies all listed observers", "statement": "observable<D, Os...>::notify(d) calls each listed observer exactly once, in declaration order, with d and one common source object.", "quantifier": "every number and order of observers, every value", "why_tests_cant": "All parameter packs.", "anchors": ["include/xitren/comm/observer_static.hpp:observable"]}
{"id": "C43", "title": "Assignment propagates to every observer", "statement": "After a = v, value() is v, every registered observed holds v, and each on_update callback has run exactly once with v; others are untouched.", "quantifier": "every history, every v, fixed and dynamic capacity", "why_tests_cant": "All histories.", "anchors": ["include/xitren/comm/values/observable.hpp:operator=", "include/xitren/comm/values/observed.hpp:data"]}
{"id": "C44", "title": "Observers track every update operator", "statement": "After any of =, +=, -=, ++, -- (prefix or postfix) that does not overflow, value() is the arithmetically updated value, the operator returns what the built-in operator would, and every registered observed holds the new value().", "quantifier": "every history of updates, every registered set", "why_tests_cant": "All operator sequences.", "anchors": ["include/xitren/comm/values/observable.hpp:operator++", "include/xitren/comm/values/observable.hpp:operator--", "include/xitren/comm/values/observable.hpp:operator+=", "include/xitren/comm/values/observable.hpp:operator-="]}
{"id": "C45", "title": "Update operators are free of undefined behaviour", "statement": "No update operator on observable<int> has undefined behaviour for any current value and operand.", "quantifier": "every pair of 32-bit values", "why_tests_cant": "2^64 pairs.", "anchors": ["include/xitren/comm/values/observable.hpp:operator++", "include/xitren/comm/values/observable.hpp:operator--", "include/xitren/comm/values/observable.hpp:operator+=", "include/xitren/comm/values/observable.hpp:operator-="]}
{"id": "C46", "title": "An unsubscribed observed stops changing (fixed capacity)", "statement": "After remove_observer(o) returned ok on observable<T,Max>, no later update changes o's value or runs its callback until it is added again, and the other observers keep being updated exactly once per update.", "quantifier": "every history", "why_tests_cant": "All histories.", "anchors": ["include/xitren/comm/values/observable.hpp:observable<T,Max>::remove_observer"]}
{"id": "C47", "title": "An unsubscribed observed stops changing (dynamic)", "statement": "After remove_observer(o) returned ok on observable_dynamic<T>, no later update changes o or runs its callback, and the other observers are updated exactly once per update.", "quantifier": "every history", "why_tests_cant": "All histories.", "anchors": ["include/xitren/comm/values/observable.hpp:observable<T,0>::remove_observer"]}
{"id": "C48", "title": "Concurrent updates leave observers in step", "statement": "When concurrent update calls from several threads have all returned, every registered observed holds value().", "quantifier": "every schedule of any number of updating threads", "why_tests_cant": "Schedules.", "anchors": ["include/xitren/comm/values/observable.hpp:operator=", "include/xitren/comm/values/observed.hpp:data"]}
{"id": "C49", "title": "Messages reach exactly the interested modules", "statement": "A value of type T sent by a module is delivered exactly once, in registration order, to every registered module that lists T among its received types and whose own sent type is not T, and to no other module.", "quantifier": "every set of modules, every registration history, every message (type-name hashes distinct)", "why_tests_cant": "All topologies.", "anchors": ["include/xitren/comm/mediator.hpp:distribute", "include/xitren/comm/mediator.hpp:receive", "include/xitren/comm/mediator.hpp:receiver_converter"]}
{"id": "C50", "title": "Message payloads arrive intact", "statement": "The value passed to a module's data callback equals the value sent, for every trivially copyable message type; a message whose size does not match the declared type is dropped by modules and rejected with an exception by manager::convert_field.", "quantifier": "every message type and value, every byte count", "why_tests_cant": "All values.", "anchors": ["include/xitren/comm/mediator.hpp:convert_field", "include/xitren/comm/mediator.hpp:send"]}
{"id": "C51", "title": "Manager broadcast reaches all receivers", "statement": "manager::send(d) of type T delivers d exactly once to each registered module that receives T and does not itself send T.", "quantifier": "every set of modules and message", "why_tests_cant": "All topologies.", "anchors": ["include/xitren/comm/mediator.hpp:manager::send"]}
{"id": "C52", "title": "Module registration stays within capacity", "statement": "Any history of module construction and destruction that keeps at most Sources modules alive is memory-safe and leaves exactly the live modules registered, in construction order.", "quantifier": "every Sources, every history within capacity", "why_tests_cant": "All histories, full manager included.", "anchors": ["include/xitren/comm/mediator.hpp:add_module", "include/xitren/comm/mediator.hpp:remove_module"]}
{"id": "C53", "title": "Sender identity is reported to the manager first", "statement": "For each module send the manager's data hook is called exactly once, before any delivery, with the sender's type id and the bytes sent.", "quantifier": "every topology and message", "why_tests_cant": "All topologies.", "anchors": ["include/xitren/comm/mediator.hpp:distribute"]}
{"id": "C54", "title": "Every pushed item is counted", "statement": "When the worker thread of a pipeline_stage has ended after destruction began, the handler has been invoked exactly as many times as push was called, whatever the interleaving and however many items were pushed.", "quantifier": "every number of producers and items, every schedule", "why_tests_cant": "Schedules.", "anchors": ["include/xitren/comm/pipeline_stage.hpp:push", "include/xitren/comm/pipeline_stage.hpp:worker_"]}
{"id": "C55", "title": "Items are processed exactly once in order", "statement": "Every item pushed into a pipeline_stage is handed to the handler exactly once, in the order of the pushes (hence in each producer's program order).", "quantifier": "every number of producers and items, every schedule", "why_tests_cant": "Schedules, and buffer wrap-around.", "anchors": ["include/xitren/comm/pipeline_stage.hpp:push", "include/xitren/comm/pipeline_stage.hpp:worker_"]}
{"id": "C56", "title": "The handler only sees pushed items", "statement": "Every value handed to the handler was passed to an earlier push, and the handler is never invoked on an empty slot.", "quantifier": "every schedule, any number of items", "why_tests_cant": "Schedules.", "anchors": ["include/xitren/comm/pipeline_stage.hpp:worker_"]}
{"id": "C57", "title": "Destruction drains and terminates", "statement": "After all pushes have returned and destruction has begun, the worker ends after finitely many steps under every schedule that lets it run, and not before everything pushed has been handled.", "quantifier": "every schedule", "why_tests_cant": "Liveness over schedules.", "anchors": ["include/xitren/comm/pipeline_stage.hpp:~pipeline_stage", "include/xitren/comm/pipeline_stage.hpp:worker_"]}
{"id": "C58", "title": "Stage statistics are a window of at most ten samples", "statement": "time_for_unit() and buffer_utilization() are the sums of the last min(10, handled) samples divided by ten; older samples have no influence.", "quantifier": "every sequence of samples", "why_tests_cant": "All sequences.", "anchors": ["include/xitren/comm/pipeline_stage.hpp:time_for_unit", "include/xitren/comm/pipeline_stage.hpp:buffer_utilization", "include/xitren/comm/pipeline_stage_pool.hpp:time_for_unit", "include/xitren/comm/pipeline_stage_pool.hpp:buffer_utilization"]}
{"id": "C59", "title": "The pool processes every item", "statement": "Every item pushed into a pipeline_stage_pool with PoolSize workers is handled exactly once before destruction completes.", "quantifier": "every PoolSize, number of producers and items, every schedule", "why_tests_cant": "Schedules and pool sizes other than the tested 8.", "anchors": ["include/xitren/comm/pipeline_stage_pool.hpp:pipeline_stage_pool", "include/xitren/comm/pipeline_stage_pool.hpp:push"]}
{"id": "C60", "title": "The pool balances load", "statement": "push places the item in a queue whose backlog at the time of the scan is minimal (the lowest-numbered such queue).", "quantifier": "every backlog vector", "why_tests_cant": "All backlogs.", "anchors": ["include/xitren/comm/pipeline_stage_pool.hpp:min_thread", "include/xitren/comm/pipeline_stage_pool.hpp:push"]}
{"id": "C61", "title": "No callback after stop", "statement": "Once interval_event::stop() (or the destructor) has returned, the function is never called again, under any schedule.", "quantifier": "every schedule", "why_tests_cant": "Schedules.", "anchors": ["include/xitren/func/interval_event.hpp:stop", "include/xitren/func/interval_event.hpp:interval_event"]}
{"id": "C62", "title": "stop returns", "statement": "stop() called from a thread other than the worker returns after finitely many worker steps, and a second stop() returns immediately.", "quantifier": "every schedule that lets the worker run", "why_tests_cant": "Liveness over schedules.", "anchors": ["include/xitren/func/interval_event.hpp:stop"]}
{"id": "C63", "title": "Calls are rate-limited and do not drift", "statement": "For constant period P and any clock readings, the (n+1)-th call of the function happens no earlier than n*P after the first scheduling instant, however late the thread is scheduled, and missed periods are caught up one per check.", "quantifier": "every clock behaviour, every n", "why_tests_cant": "All timings.", "anchors": ["include/xitren/func/interval_event.hpp:interval_event"]}
{"id": "C64", "title": "The first call waits one period", "statement": "The function is not called before one full period has elapsed since the event was started.", "quantifier": "every clock behaviour", "why_tests_cant": "All timings.", "anchors": ["include/xitren/func/interval_event.hpp:interval_event"]}
{"id": "C65", "title": "The worker does not touch a destroyed interval_event", "statement": "After ~interval_event returned, the worker thread performs no further access to the object.", "quantifier": "every schedule", "why_tests_cant": "Schedules.", "anchors": ["include/xitren/func/interval_event.hpp:~interval_event", "include/xitren/func/interval_event.hpp:stop"]}
{"id": "C66", "title": "LRU cache is bounded", "statement": "The cache never holds more than Size entries, in any of its structures, and never two entries for one key.", "quantifier": "every Size >= 1, every history of put", "why_tests_cant": "All histories.", "anchors": ["include/xitren/cache/lru.hpp:put"]}
{"id": "C67", "title": "LRU evicts the least recently put key", "statement": "When a new key is put into a full cache the entry whose key was put least recently is the one dropped; all other entries stay, in order of recency.", "quantifier": "every Size, every history", "why_tests_cant": "All histories.", "anchors": ["include/xitren/cache/lru.hpp:put"]}
{"id": "C68", "title": "LRU put stores the new value", "statement": "After put(k,v) a lookup of k finds v.", "quantifier": "every history, every k, v", "why_tests_cant": "All histories.", "anchors": ["include/xitren/cache/lru.hpp:put", "include/xitren/cache/lru.hpp:get"]}
{"id": "C69", "title": "LRU evicted keys can be put again", "statement": "put never fails: a key that was evicted can be put again like a new key.", "quantifier": "every history", "why_tests_cant": "All histories.", "anchors": ["include/xitren/cache/lru.hpp:put"]}
{"id": "C70", "title": "Options take their value from the following token", "statement": "After parse, a registered string or int option that occurs (with a following token) holds the value extracted from the token after its last such occurrence; options that do not occur keep their value.", "quantifier": "every argument vector and option set", "why_tests_cant": "All argument vectors.", "anchors": ["include/xitren/func/argv_parser.hpp:parse", "include/xitren/func/argv_parser.hpp:register_callback"]}
{"id": "C71", "title": "Flags are set iff present", "statement": "After parse a registered bool option is true iff it was true before or its name is one of the arguments.", "quantifier": "every argument vector and option set", "why_tests_cant": "All argument vectors.", "anchors": ["include/xitren/func/argv_parser.hpp:parse"]}
{"id": "C72", "title": "Parsing is memory-safe", "statement": "parse reads only argv[0..argc-1]; an option that is the last token is ignored rather than read past the end.", "quantifier": "every argument vector including empty", "why_tests_cant": "All vectors.", "anchors": ["include/xitren/func/argv_parser.hpp:parse"]}
{"id": "C73", "title": "Registration order is irrelevant", "statement": "The parsed result depends only on the final name-to-field mapping (the last registration of a name wins), not on the order in which options were registered.", "quantifier": "every pair of registration orders, every argument vector", "why_tests_cant": "All permutations.", "anchors": ["include/xitren/func/argv_parser.hpp:instance"]}
{"id": "C74", "title": "Integers round-trip through the command line", "statement": "For every 32-bit n, passing its decimal representation as an int option's value sets the field to n.", "quantifier": "every 32-bit n", "why_tests_cant": "2^32 values.", "anchors": ["include/xitren/func/argv_parser.hpp:register_callback"]}
{"id": "C75", "title": "fast_pimpl storage fits the object", "statement": "Whenever the validator's compile-time checks pass, the object placed in the storage lies inside it and is correctly aligned at every address where the wrapper can be placed.", "quantifier": "every size, alignment and address", "why_tests_cant": "All layouts.", "anchors": ["include/xitren/func/fast_pimpl.hpp:validator", "include/xitren/func/fast_pimpl.hpp:get"]}
{"id": "C76", "title": "fast_pimpl has value semantics and balanced lifetimes", "statement": "Every history of construction, copy, move, assignment, mutation and destruction of fast_pimpl objects has the same observable values as the same history on plain T objects, and each inner object is constructed and destroyed exactly once.", "quantifier": "every history over any number of objects", "why_tests_cant": "All histories.", "anchors": ["include/xitren/func/fast_pimpl.hpp:fast_pimpl"]}
{"id": "C77", "title": "Pipeline slots are free of data races", "statement": "No push into a pipeline_stage writes a slot while the worker reads the same slot without an ordering between the two.", "quantifier": "every number of producers and items, every schedule", "why_tests_cant": "A race needs an unlucky schedule and need not show.", "anchors": ["include/xitren/comm/pipeline_stage.hpp:push", "include/xitren/comm/pipeline_stage.hpp:worker_"]}
{"id": "C78", "title": "The interval worker reads only initialised members", "statement": "The worker thread of an interval_event never reads period_ or period_between_checks_ before the constructor has initialised them.", "quantifier": "every schedule", "why_tests_cant": "Needs the constructing thread to be delayed for ten milliseconds.", "anchors": ["include/xitren/func/interval_event.hpp:interval_event"]}
{"id": "C79", "title": "A callback can stop its own event", "statement": "stop() called from inside the periodic function returns, and the function is not called again.", "quantifier": "every schedule", "why_tests_cant": "Liveness over schedules.", "anchors": ["include/xitren/func/interval_event.hpp:stop", "include/xitren/func/interval_event.hpp:interval_event"]}
{"id": "C80", "title": "The period can be changed while the event runs", "statement": "period(val) does not race with the worker thread's use of period_.", "quantifier": "every schedule", "why_tests_cant": "A race need not show.", "anchors": ["include/xitren/func/interval_event.hpp:period"]}
{"id": "C81", "title": "A value is not an option", "statement": "A token that parse consumes as the value of an option is not itself interpreted as the name of an option: the result is that of reading the arguments from left to right and skipping the values.", "quantifier": "every argument vector and option set", "why_tests_cant": "All argument vectors.", "anchors": ["include/xitren/func/argv_parser.hpp:parse", "include/xitren/func/argv_parser.hpp:register_callback"]}
{"id": "C82", "title": "A parse does not depend on earlier ones", "statement": "The result of parse depends only on its arguments and the initial values of the options, not on earlier calls of parse on the same parser.", "quantifier": "every sequence of argument vectors", "why_tests_cant": "All sequences.", "anchors": ["include/xitren/func/argv_parser.hpp:parse"]}
{"id": "C83", "title": "Destruction of a pool ends", "statement": "After all pushes have returned and destruction of a pipeline_stage_pool has begun, every worker ends after finitely many steps under every schedule, and not before it has handled as many items as were pushed into its queue.", "quantifier": "every PoolSize, number of items and schedule", "why_tests_cant": "Liveness over schedules.", "anchors": ["include/xitren/comm/pipeline_stage_pool.hpp:~pipeline_stage_pool", "include/xitren/comm/pipeline_stage_pool.hpp:pipeline_stage_pool"]}
{"id": "C84", "title": "The lock of the unbounded observable is never lost", "statement": "Where the mutex is compiled in and no callback calls back, every call of observable<T,false> that was begun returns, exactly once, after a bounded number of steps of all threads, whatever the schedule.", "quantifier": "every number of threads, every state and schedule", "why_tests_cant": "Liveness over schedules.", "anchors": ["include/xitren/comm/observer.hpp:observable<T,false>"]}
{"id": "C85", "title": "Update functions may call back into a value observable", "statement": "Whatever the on_update and disconnect functions of the observed objects do with a fixed-capacity values::observable - updates, registrations, removals, clear, to any depth - no call has undefined behaviour other than signed overflow, and the registrations stay without repetition and within the capacity.", "quantifier": "every capacity, every set of functions, every history and depth of nesting", "why_tests_cant": "All functions.", "anchors": ["include/xitren/comm/values/observable.hpp:notify_observers", "include/xitren/comm/values/observable.hpp:add_observer", "include/xitren/comm/values/observable.hpp:remove_observer", "include/xitren/comm/values/observable.hpp:clear_observers"]}
{"id": "C86", "title": "Updates made by update functions reach everyone", "statement": "An update returns even if on_update functions update the same values::observable, and afterwards every registered observed object holds value().", "quantifier": "every set of functions, every history and depth of nesting", "why_tests_cant": "All functions and orders of registration.", "anchors": ["include/xitren/comm/values/observable.hpp:notify_observers", "include/xitren/comm/values/observable.hpp:operator=", "include/xitren/comm/values/observable.hpp:operator+="]}
{"id": "C87", "title": "Each object registered throughout an update is told once", "statement": "When on_update functions register and remove objects during an update, each object that stays registered throughout is told the value exactly once, and an object that was removed is not told any more.", "quantifier": "every set of functions and registrations", "why_tests_cant": "All functions and orders of registration.", "anchors": ["include/xitren/comm/values/observable.hpp:notify_observers", "include/xitren/comm/values/observable.hpp:remove_observer"]}
{"id": "C88", "title": "LRU entries expire expired_after after their last put", "statement": "get reports an entry as expired exactly when expired_after has passed since its key was last put: it then throws cache_timeout, or returns nothing if Exception is false. For a key that was never put it returns nothing, and otherwise it returns the entry.", "quantifier": "every history of put, every key and clock reading", "why_tests_cant": "All histories and times.", "anchors": ["include/xitren/cache/lru.hpp:get", "include/xitren/cache/lru.hpp:put"]}
{"id": "C89", "title": "Callbacks of the unbounded observable may call back", "statement": "Where the mutex is compiled out, no call of observable<T,false> has undefined behaviour, whatever calls of the same object its observers' data and disconnect functions make: subscriptions, removals, notifications, clearing.", "quantifier": "every set of callbacks, every history of calls and nested calls", "why_tests_cant": "All callback programs; invalidated iterators often seem to work.", "anchors": ["include/xitren/comm/observer.hpp:observable<T,false>::notify_observers", "include/xitren/comm/observer.hpp:observable<T,false>::clear_observers"]}
{"id": "C90", "title": "Completed notifications of the unbounded observable are complete", "statement": "Where the mutex is compiled out, every call of notify_observers that returns has called data of each observer registered when it started exactly once, in order of subscription, also if callbacks notified in between; clear_observers that returns has called disconnect of each likewise and leaves none registered.", "quantifier": "every set of callbacks, every history", "why_tests_cant": "All callback programs.", "anchors": ["include/xitren/comm/observer.hpp:observable<T,false>::notify_observers", "include/xitren/comm/observer.hpp:observable<T,false>::clear_observers"]}
{"id": "C91", "title": "Recursive notification of the unbounded observable is detected", "statement": "Where the mutex is compiled out, every call returns: a notification made by an observer while it is notified by the same object fails with notify_recursion_detected, as documented.", "quantifier": "every set of callbacks, every history", "why_tests_cant": "All callback programs; termination.", "anchors": ["include/xitren/comm/observer.hpp:observable<T,false>::notify_observers"]}
{"id": "C92", "title": "Functions of objects observing a dynamic value may call back", "statement": "No call of observable<T,0> has undefined behaviour other than signed overflow, whatever calls of the same observable the on_update and disconnect functions of its observed objects make: updates, registrations, removals, clear.", "quantifier": "every set of functions, every history of calls and nested calls", "why_tests_cant": "All functions; invalidated iterators often seem to work.", "anchors": ["include/xitren/comm/values/observable.hpp:observable<T,0>::notify_observers", "include/xitren/comm/values/observable.hpp:observable<T,0>::add_observer", "include/xitren/comm/values/observable.hpp:observable<T,0>::clear_observers"]}
{"id": "C93", "title": "Completed updates of a dynamic value tell each object once", "statement": "Every update of observable<T,0> that returns has told each observed object registered when it started exactly once, in order of registration, the value it returns, whatever calls the on_update functions made meanwhile.", "quantifier": "every set of functions, every history", "why_tests_cant": "All functions and orders of registration.", "anchors": ["include/xitren/comm/values/observable.hpp:observable<T,0>::notify_observers", "include/xitren/comm/values/observable.hpp:observable<T,0>::remove_observer"]}
{"id": "C94", "title": "A frame depends only on its input", "statement": "After packet_accessor::serialize returned true the size() bytes of the frame are exactly the bytes of the header, the fields, the given elements and the CRC of these, whatever the accessor held before; nothing of earlier frames remains in it.", "quantifier": "every earlier content, header, fields, element type, count and data (possibly null)", "why_tests_cant": "All earlier contents and payloads.", "anchors": ["include/xitren/func/packet.hpp:packet_accessor::serialize"]}
{"id": "C95", "title": "Default-constructed packets and accessors are empty", "statement": "packet() consists of zero bytes and is valid exactly if the CRC of zero bytes is zero; a new packet_accessor has size 0, and deserialize of it reports an invalid frame without elements.", "quantifier": "every header, field, element and CRC type, every Max", "why_tests_cant": "All types; the result depends on wrapping arithmetic and the element size.", "anchors": ["include/xitren/func/packet.hpp:packet", "include/xitren/func/packet.hpp:packet_accessor::deserialize"]}
{"id": "C96", "title": "Modules may come and go while messages are delivered", "statement": "Whatever modules the data functions of modules and the hook of the manager construct and destroy while messages are under way, nothing undefined happens as long as at most Sources modules exist at a time, and the manager always knows exactly the modules that exist.", "quantifier": "every set of data functions and hooks, every history of messages, constructions and destructions", "why_tests_cant": "All functions and orders of construction; reading a destroyed sender often seems to work.", "anchors": ["include/xitren/comm/mediator.hpp:distribute", "include/xitren/comm/mediator.hpp:add_module", "include/xitren/comm/mediator.hpp:remove_module"]}
{"id": "C97", "title": "Modules alive throughout get each message once", "statement": "While data functions construct and destroy modules, each message is handed exactly once, intact, to every module that receives its type, does not send it, and exists from the start to the end of the sending; a module is never handed a message twice, and a module constructed meanwhile gets it at most once.", "quantifier": "every set of data functions and hooks, every history", "why_tests_cant": "All functions and orders of construction.", "anchors": ["include/xitren/comm/mediator.hpp:distribute", "include/xitren/comm/mediator.hpp:remove_module"]}
{"id": "C98", "title": "Handlers may push into pipeline stages", "statement": "A handler may push into its own stage, also while that stage is being destroyed, without undefined behaviour; the items it pushes are handled like any others, exactly once and in order, before the destructor returns, and each handler has then pushed exactly what it was to push for the items it got.", "quantifier": "every handler function, number of stages, producers and items, every schedule", "why_tests_cant": "Schedules, all handlers.", "anchors": ["include/xitren/comm/pipeline_stage.hpp:push", "include/xitren/comm/pipeline_stage.hpp:worker_", "include/xitren/comm/pipeline_stage.hpp:~pipeline_stage"]}
{"id": "C99", "title": "A line of pipeline stages delivers everything", "statement": "If each handler pushes into the next stage and the stages are destroyed from the first to the last, no handler pushes into a destroyed stage, and when the last stage is destroyed each stage has handled exactly what the stages before it make of the items pushed from outside, in their order.", "quantifier": "every number of stages, all handlers, every number of items, every schedule", "why_tests_cant": "Schedules, all handlers and lengths.", "anchors": ["include/xitren/comm/pipeline_stage.hpp:push", "include/xitren/comm/pipeline_stage.hpp:worker_", "include/xitren/comm/pipeline_stage.hpp:~pipeline_stage"]}
{"id": "C100", "title": "Destruction of a stage whose handler pushes ends", "statement": "The destructor of a pipeline_stage whose handler pushes into the stage itself returns, after finitely many steps of the worker, if these pushes come to an end; if every item makes the handler push again it never returns.", "quantifier": "every handler function, every number of items, every schedule", "why_tests_cant": "Liveness over schedules, all handlers.", "anchors": ["include/xitren/comm/pipeline_stage.hpp:~pipeline_stage", "include/xitren/comm/pipeline_stage.hpp:worker_"]}
{"id": "C101", "title": "Modules get what the manager's hook leaves", "statement": "The hook data(id, ptr, sz) of the manager may write to the message: all modules that get the message get the same bytes, those that the hook left, and of the size that was sent; a hook that does not write leaves messages intact; what the manager itself sends does not pass the hook; a module that sends memory of its own with send(ptr, sz) finds there what the modules were told.", "quantifier": "every hook and set of data functions, every history", "why_tests_cant": "All hooks, messages and topologies.", "anchors": ["include/xitren/comm/mediator.hpp:distribute", "include/xitren/comm/mediator.hpp:manager::data", "include/xitren/comm/mediator.hpp:send"]}
{"id": "C102", "title": "Exceptions do not disturb the mediator", "statement": "An exception thrown by a data function or by the hook (for instance by manager::convert_field) reaches the program that sent the message; the manager still knows exactly the modules that exist, and every module that wants the message gets it once nevertheless; if the hook throws no module gets the message.", "quantifier": "every set of data functions and hooks that may throw, every history", "why_tests_cant": "All functions; exceptions at every point.", "anchors": ["include/xitren/comm/mediator.hpp:distribute", "include/xitren/comm/mediator.hpp:manager::send", "include/xitren/comm/mediator.hpp:convert_field"]}
{"id": "C103", "title": "Observers and observables can be destroyed in any order", "statement": "Whatever observers and observables (observable<T,true,Max>) a program constructs, registers, copies, assigns and destroys - also from inside data and disconnect - no function is called on an observer that no longer exists and no observable is used after its destruction.", "quantifier": "every Max, any number of objects, every set of callbacks, every history and depth of nesting", "why_tests_cant": "All histories; a dangling pointer often seems to work.", "anchors": ["include/xitren/comm/observer.hpp:~observer", "include/xitren/comm/observer.hpp:~observable", "include/xitren/comm/observer.hpp:notify_observers", "include/xitren/comm/observer.hpp:clear_observers"]}
{"id": "C104", "title": "Copies of an observable", "statement": "An observable calls only observers that were added to it: copying or assigning an observable either carries its registrations over completely, so that the copy notifies exactly those the original would, or not at all; observers that lose their registration are told with disconnect.", "quantifier": "every history, every moment of copying", "why_tests_cant": "All histories; copying during a notification.", "anchors": ["include/xitren/comm/observer.hpp:observable", "include/xitren/comm/observer.hpp:notify_observers", "include/xitren/comm/observer.hpp:clear_observers"]}
{"id": "C105", "title": "Exceptions from observers reach the caller", "statement": "If a callback of an observer of the unbounded observable (observable<T,false>) throws, the exception leaves the call that ran the callback, the mutex is released, the same observers are registered as before, and the object can be used as if the call had not happened; a call that returns has done all of its work.", "quantifier": "every sequence of calls, any callbacks that call back, catch, throw or let pass, with and without the mutex", "why_tests_cant": "Which of any number of observers throws, at which call, at which depth of nesting.", "anchors": ["include/xitren/comm/observer.hpp:clear_observers", "include/xitren/comm/observer.hpp:notify_observers", "include/xitren/comm/observer.hpp:notification", "include/xitren/comm/observer.hpp:~observable"]}
{"id": "C106", "title": "Each subscription is disconnected at most once", "statement": "No observer of the unbounded observable is told more often that it is disconnected than it was subscribed, whatever callbacks throw.", "quantifier": "every sequence of calls, any callbacks that call back, catch, throw or let pass", "why_tests_cant": "Counting over all histories.", "anchors": ["include/xitren/comm/observer.hpp:clear_observers", "include/xitren/comm/observer.hpp:~observable"]}
{"id": "C107", "title": "Statistics of a stage can be read from any thread", "statement": "time_for_unit() and buffer_utilization() of a pipeline_stage may be called from any thread while the stage works: the call is not a data race with the worker, and returns the average of the latest ten samples.", "quantifier": "every number of threads, every schedule, every way in which handler and threads synchronise", "why_tests_cant": "A data race need not show; it depends on what happens before what, not on an overlap.", "anchors": ["include/xitren/comm/pipeline_stage.hpp:time_for_unit", "include/xitren/comm/pipeline_stage.hpp:buffer_utilization", "include/xitren/comm/pipeline_stage.hpp:worker_"]}
{"id": "C108", "title": "What the function did is visible after stop()", "statement": "Once interval_event::stop() has returned to a thread, or the destructor, everything the periodic function ever did happens before what this thread does next: the thread can use what the function used without further synchronisation.", "quantifier": "every number of calls of the function, any threads calling stop(), every schedule, every way in which function and threads synchronise otherwise", "why_tests_cant": "A data race need not show; it depends on what happens before what.", "anchors": ["include/xitren/func/interval_event.hpp:stop", "include/xitren/func/interval_event.hpp:interval_event"]}
{"id": "C109", "title": "stop() may be called from any thread", "statement": "Calls of interval_event::stop() from several threads are not a data race.", "quantifier": "any number of threads, every schedule, every way in which the threads synchronise", "why_tests_cant": "A data race need not show.", "anchors": ["include/xitren/func/interval_event.hpp:stop"]}
{"id": "C110", "title": "A value can be updated and read from several threads", "statement": "While no observer is added or removed and no function is set, threads may update a values::observable and read it and its observed objects at the same time without data races in the library.", "quantifier": "any number of threads and observers, both variants, every schedule, also updates from inside on_update functions", "why_tests_cant": "A data race need not show.", "anchors": ["include/xitren/comm/values/observable.hpp:notify_observers", "include/xitren/comm/values/observable.hpp:operator=", "include/xitren/comm/values/observable.hpp:value", "include/xitren/comm/values/observed.hpp:notification", "include/xitren/comm/values/observed.hpp:value"]}
{"id": "C111", "title": "Observers can be registered while other threads update", "statement": "add_observer, remove_observer, clear_observers and on_update may be called while other threads update the values::observable, without data races.", "quantifier": "any number of threads, both variants, every schedule, every way in which the threads synchronise", "why_tests_cant": "A data race need not show.", "anchors": ["include/xitren/comm/values/observable.hpp:add_observer", "include/xitren/comm/values/observable.hpp:remove_observer", "include/xitren/comm/values/observable.hpp:clear_observers", "include/xitren/comm/values/observed.hpp:on_update"]}
{"id": "C112", "title": "Reading a value makes visible what came before its update", "statement": "A thread that reads value() of a values::observable or of an observed and sees what an update stored or sent can use everything that the updating thread wrote before that update.", "quantifier": "any number of threads, both variants, every schedule", "why_tests_cant": "Missing order need not show.", "anchors": ["include/xitren/comm/values/observable.hpp:value", "include/xitren/comm/values/observable.hpp:operator=", "include/xitren/comm/values/observable.hpp:operator+=", "include/xitren/comm/values/observed.hpp:value", "include/xitren/comm/values/observed.hpp:data"]}
{"id": "C113", "title": "Update functions do not overlap", "statement": "The on_update functions of the observed objects of a values::observable never run at the same time, so that data that only they use needs no protection.", "quantifier": "any number of updating threads, every schedule", "why_tests_cant": "An overlap depends on the schedule.", "anchors": ["include/xitren/comm/values/observed.hpp:data", "include/xitren/comm/values/observable.hpp:notify_observers"]}
{"id": "C114", "title": "Observed objects and value observables can be destroyed in any order", "statement": "Whatever values::observed and values::observable objects a program constructs, registers, updates, removes and destroys, no function is called on an observed object that no longer exists; in particular an object that remove_observer took out, or that is destroyed, is not used afterwards, and an object receives only values of observables it was added to.", "quantifier": "both variants, any number of objects, every history", "why_tests_cant": "All histories; a dangling pointer often seems to work.", "anchors": ["include/xitren/comm/values/observed.hpp:~observed", "include/xitren/comm/values/observable.hpp:~observable", "include/xitren/comm/values/observable.hpp:remove_observer", "include/xitren/comm/values/observable.hpp:notify_observers", "include/xitren/comm/values/observable.hpp:clear_observers"]}
{"id": "C115", "title": "The samples of pool workers are free of data races", "statement": "No access to the deque of samples of a queue of a pipeline_stage_pool is a data race.", "quantifier": "every PoolSize, any number of pushing threads, every schedule, every way in which handlers and threads synchronise", "why_tests_cant": "A data race need not show.", "anchors": ["include/xitren/comm/pipeline_stage_pool.hpp:pipeline_stage_pool", "include/xitren/comm/pipeline_stage_pool.hpp:time_for_unit", "include/xitren/comm/pipeline_stage_pool.hpp:buffer_utilization"]}
{"id": "C116", "title": "Pushing into a pool is free of data races", "statement": "Any threads may push into a pipeline_stage_pool while its workers run: neither the stores of push nor the worker's look at a slot and its use of the item are data races.", "quantifier": "every PoolSize and BufferSize, any number of pushing threads, every schedule, every way in which handlers and threads synchronise", "why_tests_cant": "A data race need not show; it depends on what happens before what, not on an overlap.", "anchors": ["include/xitren/comm/pipeline_stage_pool.hpp:push", "include/xitren/comm/pipeline_stage_pool.hpp:pipeline_stage_pool"]}
{"id": "C117", "title": "What handlers did is visible after destruction of a pool", "statement": "Once the destructor of a pipeline_stage_pool has returned, everything the handlers ever did, and everything that came before a push into the queue of one of the workers, happens before what the destroying thread does next: it can use what the handlers used without further synchronisation.", "quantifier": "every PoolSize, any number of threads and items, every schedule, every way in which handlers and threads synchronise", "why_tests_cant": "Missing order need not show.", "anchors": ["include/xitren/comm/pipeline_stage_pool.hpp:~pipeline_stage_pool"]}
{"id": "C118", "title": "What came before a push is visible to the handler of a pool", "statement": "What a thread did before it pushed an item into a pipeline_stage_pool, and what it had come after, happens before what the handler of this item does.", "quantifier": "every PoolSize, any number of threads, every schedule", "why_tests_cant": "Missing order need not show.", "anchors": ["include/xitren/comm/pipeline_stage_pool.hpp:push", "include/xitren/comm/pipeline_stage_pool.hpp:pipeline_stage_pool"]}
{"id": "C119", "title": "The handler of a pool has its data for itself", "statement": "The handler of a pipeline_stage_pool is not called twice at the same time, so that data that only the handler uses needs no protection.", "quantifier": "every PoolSize, any number of items, every schedule", "why_tests_cant": "An overlap depends on the schedule.", "anchors": ["include/xitren/comm/pipeline_stage_pool.hpp:pipeline_stage_pool"]}
{"id": "C120", "title": "Handlers of a pool may push into the pool", "statement": "A handler may push into its own pipeline_stage_pool, also while the pool is being destroyed, without undefined behaviour; a worker does not end before it has handled, exactly once and in order, what was pushed into its queue until then, and the pushes of a handler are exactly those that its items ask for; a worker never misses what its own handler or another thread pushes into its queue.", "quantifier": "every handler function, PoolSize, number of threads and items, every schedule", "why_tests_cant": "Schedules, all handlers.", "anchors": ["include/xitren/comm/pipeline_stage_pool.hpp:push", "include/xitren/comm/pipeline_stage_pool.hpp:pipeline_stage_pool", "include/xitren/comm/pipeline_stage_pool.hpp:~pipeline_stage_pool"]}
{"id": "C121", "title": "Nothing that handlers push into their pool is lost", "statement": "When the destructor of a pipeline_stage_pool has returned, everything pushed from outside and everything pushed by handlers has been handled, exactly once.", "quantifier": "every handler function, PoolSize, number of threads and items, every schedule", "why_tests_cant": "Needs a worker to end while another one is still handling.", "anchors": ["include/xitren/comm/pipeline_stage_pool.hpp:push", "include/xitren/comm/pipeline_stage_pool.hpp:min_thread", "include/xitren/comm/pipeline_stage_pool.hpp:~pipeline_stage_pool"]}
{"id": "C122", "title": "Destruction of a pool whose handler pushes ends", "statement": "The destructor of a pipeline_stage_pool whose handler pushes into the pool itself returns, after finitely many steps, if these pushes come to an end; if every item makes the handler push again it never returns.", "quantifier": "every handler function, every number of items, every schedule", "why_tests_cant": "Liveness over schedules, all handlers.", "anchors": ["include/xitren/comm/pipeline_stage_pool.hpp:~pipeline_stage_pool", "include/xitren/comm/pipeline_stage_pool.hpp:min_thread"]}
{"id": "C123", "title": "The allocator adaptor returns memory aligned for its type", "statement": "A pointer returned by static_heap_allocator<T>::allocate(n) is aligned for T.", "quantifier": "every reachable heap, every n, every size and alignment of T", "why_tests_cant": "Misalignment depends on the address of the heap and on what was allocated before.", "anchors": ["include/xitren/allocators/static_heap_allocator.hpp:allocate", "include/xitren/allocators/static_heap.hpp:allocate"]}
{"id": "C124", "title": "The time between checks can be changed while the event runs", "statement": "period_between_checks(val) of an interval_event does not race with the worker thread's use of period_between_checks_.", "quantifier": "every number of calls, any threads, every schedule, every way in which the threads synchronise", "why_tests_cant": "A data race need not show.", "anchors": ["include/xitren/func/interval_event.hpp:period_between_checks", "include/xitren/func/interval_event.hpp:interval_event"]}
{"id": "C125", "title": "What handlers did is visible after destruction of a stage", "statement": "Once the destructor of a pipeline_stage has returned, everything the handler ever did, and everything that came before a push into the stage, happens before what the destroying thread does next: it can use what the handler used without further synchronisation.", "quantifier": "any number of threads and items, every schedule, every way in which handler and threads synchronise", "why_tests_cant": "Missing order need not show.", "anchors": ["include/xitren/comm/pipeline_stage.hpp:~pipeline_stage"]}
{"id": "C126", "title": "What came before a push is visible to the handler of a stage", "statement": "What a thread did before it pushed an item into a pipeline_stage, and what it had come after, happens before what the handler of this item does.", "quantifier": "any number of threads and items, every schedule", "why_tests_cant": "Missing order need not show.", "anchors": ["include/xitren/comm/pipeline_stage.hpp:push", "include/xitren/comm/pipeline_stage.hpp:worker_"]}
{"id": "C127", "title": "Data that goes with an item belongs to the handler", "statement": "Data that a thread uses before it pushes an item into a pipeline_stage, that handlers use from this item on, and that the destroying thread uses after the destructor, is free of data races, as is data that only the handler uses; before the destructor has returned a thread outside cannot take data back from the handler unless the handler synchronises with it.", "quantifier": "any number of threads and items, every schedule", "why_tests_cant": "Missing order need not show.", "anchors": ["include/xitren/comm/pipeline_stage.hpp:push", "include/xitren/comm/pipeline_stage.hpp:worker_", "include/xitren/comm/pipeline_stage.hpp:~pipeline_stage"]}
{"id": "C128", "title": "Static packet serialisation gives a valid packet", "statement": "The bytes returned by packet::serialize(header, fields) are those of a valid packet with this header and these fields.", "quantifier": "every header type, field type, CRC function and value, whatever the padding bytes of copies are", "why_tests_cant": "Padding bytes of copies are often equal by chance; it depends on the compiler.", "anchors": ["include/xitren/func/packet.hpp:serialize", "include/xitren/func/data.hpp:serialize"]}
{"id": "C129", "title": "static_heap does not keep threads apart", "statement": "Although static_heap calls v_task_suspend_all() and x_task_resume_all() around its work, nothing keeps threads apart: whenever an allocation would succeed, two threads that ask for the same size at the same time can both be given the same block; and in an execution in which the threads do not synchronise otherwise, some step is a data race as soon as one thread has got memory and another one has got memory, asked how much is free or reset the low-water mark.", "quantifier": "every reachable heap, every size, any two threads; every execution without synchronisation", "why_tests_cant": "Depends on the schedule; a data race need not show.", "anchors": ["include/xitren/allocators/static_heap.hpp:allocate", "include/xitren/allocators/static_heap.hpp:v_task_suspend_all", "include/xitren/allocators/static_heap.hpp:x_task_resume_all", "include/xitren/allocators/static_heap.hpp:free_heap_size"]}
{"id": "C130", "title": "Behind a lock static_heap can be used from several threads", "statement": "If every thread holds a common lock during each call of static_heap, uses only blocks it knows of, and gives a block back only after everybody who used it is done, then there is no data race, neither in the heap nor in the blocks, every call can go on to its end, the results and the contents of the heap are those of one client that makes the same calls one after another, and blocks in use lie in the buffer, do not overlap and keep what was written into them, also while another thread is inside a call.", "quantifier": "every buffer, any number of threads, every schedule, every history of calls, reads and writes, every way in which the threads synchronise otherwise", "why_tests_cant": "All schedules and histories; missing order need not show.", "anchors": ["include/xitren/allocators/static_heap.hpp:allocate", "include/xitren/allocators/static_heap.hpp:callocate", "include/xitren/allocators/static_heap.hpp:deallocate", "include/xitren/allocators/static_heap.hpp:free_heap_size"]}
{"id": "C131", "title": "cache::lru can be used from several threads", "statement": "Threads may call put and get of one cache::lru at the same time: no access to the list or the map is a data race, every call gets on unless it would be undefined for one client, and the results and the cache are those of one client that makes the same calls one after another, in an order that agrees with the order of calls that do not overlap.", "quantifier": "any number of threads, every schedule, every Size and expiry time, with and without PTHREAD_MUTEX_DEFAULT as a macro", "why_tests_cant": "A data race need not show; all schedules.", "anchors": ["include/xitren/cache/lru.hpp:put", "include/xitren/cache/lru.hpp:get"]}
{"id": "C132", "title": "Modules may send from several threads", "statement": "Threads, and callbacks, may send through one mediator at the same time: provided that modules are constructed and destroyed only while no call is going on, by a thread that comes after all calls so far, that sending threads come after that, that the manager is not full, and that no two types in use have the same hash, there is no data race in the mediator, every call gets on, and each message that has been sent was delivered exactly once, in the sending thread and unchanged, to each registered module that receives its type and does not send it, in the order of registration.", "quantifier": "any classes of modules, any number of threads, every schedule, callbacks that send at any depth, every history of construction and destruction, every way in which threads synchronise otherwise; callbacks do not write to the message", "why_tests_cant": "A data race need not show; all schedules and histories.", "anchors": ["include/xitren/comm/mediator.hpp:distribute", "include/xitren/comm/mediator.hpp:send", "include/xitren/comm/mediator.hpp:add_module", "include/xitren/comm/mediator.hpp:remove_module"]}
{"id": "C133", "title": "All modules get messages in the same order", "statement": "If two modules both get two messages, they get them in the same order.", "quantifier": "any number of threads, every schedule, callbacks that send at any depth; users take care as in C132", "why_tests_cant": "Depends on the schedule and on what callbacks do.", "anchors": ["include/xitren/comm/mediator.hpp:distribute", "include/xitren/comm/mediator.hpp:send"]}
{"id": "C134", "title": "Modules can be constructed and destroyed while other threads send", "statement": "A module may be constructed or destroyed while other threads construct, destroy or send: there is no data race, nothing is undefined, and a module whose constructor has returned gets the messages sent from then on.", "quantifier": "any number of threads, every schedule", "why_tests_cant": "A data race need not show; depends on the schedule.", "anchors": ["include/xitren/comm/mediator.hpp:add_module", "include/xitren/comm/mediator.hpp:remove_module", "include/xitren/comm/mediator.hpp:distribute", "include/xitren/comm/mediator.hpp:send"]}
{"id": "C135", "title": "Threads may use the fixed-capacity observable at the same time", "statement": "Different threads may add, remove, clear and notify at the same time: there is no data race, nothing is undefined, no observer or notification is lost, an observer is not called after its removal has returned, and notify_recursion_detected is returned only to a caller inside a notification.", "quantifier": "any number of threads, every schedule", "why_tests_cant": "A data race need not show; depends on the schedule.", "anchors": ["include/xitren/comm/observer.hpp:add_observer", "include/xitren/comm/observer.hpp:remove_observer", "include/xitren/comm/observer.hpp:clear_observers", "include/xitren/comm/observer.hpp:notify_observers"]}
{"id": "C136", "title": "Threads that take turns use the fixed-capacity observable as one thread would", "statement": "If each call from outside callbacks is made while no other thread is in a call, by a thread that comes after all calls so far (for example because it holds a lock of the users'), then there is no data race, every call gets on, and what all threads observe is a history that one thread can have: each result is that of an ordered set with at most Max members, notifications reach each registered observer once and in order while callbacks only notify, and clearing disconnects each registered observer once and in order while callbacks call nothing.", "quantifier": "any number of threads, every capacity, every schedule, callbacks that make any calls at any depth, every way in which the users synchronise", "why_tests_cant": "All schedules and histories; callbacks may do anything.", "anchors": ["include/xitren/comm/observer.hpp:add_observer", "include/xitren/comm/observer.hpp:remove_observer", "include/xitren/comm/observer.hpp:clear_observers", "include/xitren/comm/observer.hpp:notify_observers"]}
{"id": "C137", "title": "Threads may push into a stage until its destructor returns", "statement": "A push into a pipeline_stage that begins before the destructor returns is defined, and its item is handled once, in the order of the pushes, before the destructor returns.", "quantifier": "every number of slots and of pushing threads, every schedule, pushes that begin before or during destruction, fewer than 2^64 pushes", "why_tests_cant": "Depends on where the worker and the pushing threads stand; the window is a few instructions.", "anchors": ["include/xitren/comm/pipeline_stage.hpp:push", "include/xitren/comm/pipeline_stage.hpp:~pipeline_stage", "include/xitren/comm/pipeline_stage.hpp:worker_"]}
{"id": "C138", "title": "The pointers of packet_accessor can be used", "statement": "The header, fields and element pointers that deserialize_no_check returns, and the element pointer of deserialize, can be dereferenced, and after serialize they give back the header, the fields and the elements that were serialised.", "quantifier": "every header, fields, element and CRC type and their alignments, every capacity, every address of the accessor, every content with a size between the fixed length and the capacity", "why_tests_cant": "Misalignment shows only on some machines and for some types; depends on the address.", "anchors": ["include/xitren/func/packet.hpp:deserialize_no_check", "include/xitren/func/packet.hpp:deserialize", "include/xitren/func/packet.hpp:serialize"]}
{"id": "C139", "title": "Workers use only members that live", "statement": "A worker of a pipeline_stage or a pipeline_stage_pool uses a member only after it has been initialised and before it is destroyed, without racing with either; members are destroyed only when all that workers did has happened; and what came before the constructor is visible to the workers.", "quantifier": "both classes, every number of threads of a pool, every schedule of constructor, workers, destructor and other threads, whichever thread destroys, thread starts that fail included", "why_tests_cant": "Depends on how fast the workers start; the wrong order of members works nearly always.", "anchors": ["include/xitren/comm/pipeline_stage.hpp:pipeline_stage", "include/xitren/comm/pipeline_stage.hpp:~pipeline_stage", "include/xitren/comm/pipeline_stage.hpp:worker_", "include/xitren/comm/pipeline_stage_pool.hpp:pipeline_stage_pool", "include/xitren/comm/pipeline_stage_pool.hpp:~pipeline_stage_pool"]}
{"id": "C140", "title": "A constructor that cannot start its threads throws", "statement": "If a thread cannot be started, the constructor of pipeline_stage or pipeline_stage_pool is left by an exception, all members that had been initialised are destroyed, no worker is left, and the program goes on.", "quantifier": "both classes, every number of threads of a pool, failure at any of the starts or when the thread is put into the vector", "why_tests_cant": "Needs the system to run out of threads or memory at a chosen point.", "anchors": ["include/xitren/comm/pipeline_stage.hpp:pipeline_stage", "include/xitren/comm/pipeline_stage_pool.hpp:pipeline_stage_pool"]}
{"id": "C141", "title": "Unbounded observables and observers come and go (observable<T, false>)", "statement": "Whatever a client does with observables without a capacity and observers that exist, constructing, copying, assigning and destroying them also from inside callbacks, nothing undefined happens: no observable calls an observer, or goes on with a visit of an observable, that has been destroyed or changed.", "quantifier": "all numbers of objects, all callbacks and depths of nesting, all orders of construction, registration and destruction; with and without the mutex", "why_tests_cant": "the vector holds bare pointers and the loops hold iterators; whether a destroyed observer or a changed vector is met depends on what callbacks do, and the undefined behaviour often shows no symptom", "anchors": ["include/xitren/comm/observer.hpp:24-63", "include/xitren/comm/observer.hpp:200-344"]}
{"id": "C142", "title": "Rounds of unbounded observables are complete, exact and nested", "statement": "In every run of observables without a capacity that meets nothing undefined, each notification, also one made by a callback, calls exactly those registered with the observable when it began, once each, in order of registration, one after the other; clear_observers and the destructor do the same with disconnect; nobody is called who is not registered at that moment, a removed observer is not called again until it is added or copied again; add_observer fails exactly for those registered, remove_observer for those not registered.", "quantifier": "all clients and callbacks (which may use all observables at any depth, copy, assign, destroy), both builds; callbacks do not throw, one thread", "why_tests_cant": "needs all interleavings of nested operations on many objects", "anchors": ["include/xitren/comm/observer.hpp:244-318"]}
{"id": "C143", "title": "Copies of unbounded observables tell the observers of the original (observable<T, false>)", "statement": "An observable calls only observers that were added to it; an observer that loses its place is told; a copy, also one taken during a notification, tells from then on those who were registered with the original when it was copied.", "quantifier": "all clients and callbacks, all orders of copies, assignments and changes; the build without the mutex", "why_tests_cant": "the copy operations are implicit; what they do with registrations is written nowhere in the code", "anchors": ["include/xitren/comm/observer.hpp:201", "include/xitren/comm/observer.hpp:239-244", "include/xitren/comm/observer.hpp:289-324"]}
{"id": "C144", "title": "Threads may push into a pool until its destructor returns", "statement": "A push into a pipeline_stage_pool that begins before the destructor returns is defined, and its item is handled once before the destructor returns.", "quantifier": "all numbers of workers, threads and pushes, all schedules, pushes that begin before or after the destructor; fewer than 2^64 pushes, handlers that do not push", "why_tests_cant": "Needs a push to meet the moment at which a worker leaves its loop, or the last one is joined.", "anchors": ["include/xitren/comm/pipeline_stage_pool.hpp:push", "include/xitren/comm/pipeline_stage_pool.hpp:~pipeline_stage_pool", "include/xitren/comm/pipeline_stage_pool.hpp:min_thread"]}
{"id": "C145", "title": "A new period applies to the next call", "statement": "After period(q) has returned, and without further changes, the next call of the function comes q after the scheduled instant of the one before, neither earlier nor, given checks, later.", "quantifier": "all old and new periods, any number of changes, every clock behaviour", "why_tests_cant": "The next call still comes; that it comes after the old period is noticed only if the two differ much.", "anchors": ["include/xitren/func/interval_event.hpp:period", "include/xitren/func/interval_event.hpp:interval_event"]}
{"id": "C146", "title": "Setting the clock leaves the calls alone", "statement": "If the system clock is set back or forward while the event runs, the function goes on being called once per period: it is neither silent for longer nor called in a burst.", "quantifier": "every clock behaviour, every period, every number of calls", "why_tests_cant": "Tests do not set the system clock.", "anchors": ["include/xitren/func/interval_event.hpp:interval_event"]}
{"id": "C147", "title": "A period of zero or less calls the function at every check", "statement": "With a period that is zero or negative the function is called at every check, and this stays defined.", "quantifier": "all such periods, every clock behaviour, every number of calls", "why_tests_cant": "Needs astronomically many calls, or a clock that goes back.", "anchors": ["include/xitren/func/interval_event.hpp:interval_event", "include/xitren/func/interval_event.hpp:period"]}
{"id": "C148", "title": "Values and observed objects come and go, also from inside functions", "statement": "Whatever a client does with values::observable and values::observed objects that exist, updating, registering, constructing and destroying them also from inside on_update and disconnect functions, nothing undefined happens: no observable calls an observed, or goes on with a visit of an observable, that has been destroyed or changed.", "quantifier": "both kinds of observables, all numbers of objects, all functions and depths of nesting, all orders of construction, registration, update and destruction; no signed overflow", "why_tests_cant": "The lists hold bare pointers and the loops hold iterators; whether a destroyed object or a changed list is met depends on what functions do.", "anchors": ["include/xitren/comm/values/observable.hpp:157-239", "include/xitren/comm/values/observable.hpp:401-479", "include/xitren/comm/values/observed.hpp:35-81"]}
{"id": "C149", "title": "Updates of nets of values are complete and exact", "statement": "Each update, also one made by an on_update function, tells exactly those registered with the observable when it began, once each, in order of registration, the value that it returns; clear_observers and the destructor do the same with disconnect; nobody is called who is not registered at that moment; a removed observed is not called again until it is added again; add_observer and remove_observer report whether there was room and who was registered.", "quantifier": "both kinds of observables, all clients and functions (which may use all objects at any depth) that meet nothing undefined", "why_tests_cant": "Needs all nestings of operations on many objects.", "anchors": ["include/xitren/comm/values/observable.hpp:173-239", "include/xitren/comm/values/observable.hpp:419-479"]}
{"id": "C150", "title": "Values and observed objects hold the last value", "statement": "value() of an observable returns what the last update stored, also while that update is telling the observers; value() of an observed returns what it was last told; when an update has returned, the observable and everybody registered with it hold the value returned; values that functions derive from others along a chain of any length are up to date when the first update returns.", "quantifier": "both kinds of observables, all clients and functions within the rules of C148, all chain lengths", "why_tests_cant": "Needs all nestings of updates, and chains of any length.", "anchors": ["include/xitren/comm/values/observable.hpp:30-34", "include/xitren/comm/values/observable.hpp:36-146", "include/xitren/comm/values/observable.hpp:230-239", "include/xitren/comm/values/observed.hpp:41-45", "include/xitren/comm/values/observed.hpp:74-81"]}
{"id": "C151", "title": "Threads may notify through a compile-time observable at the same time", "statement": "Threads that come after the construction of a compile-time observable and of its observers may all notify, at the same time and from inside notification functions: the observable's own accesses do not race, every notification comes to its end if the functions return, and it calls each observer given to the constructor exactly once, in their order, with its value and the one root object, and nothing else.", "quantifier": "all numbers of observers, threads, notifications and depths of nesting, all interleavings, all synchronisation by users, observables constructed and destroyed any number of times; users who construct before use and destroy after use", "why_tests_cant": "Data races and interleavings cannot be exhausted by tests.", "anchors": ["include/xitren/comm/observer_static.hpp:22-31", "include/xitren/comm/observer_static.hpp:36-58", "include/xitren/comm/observer_static.hpp:60-78"]}
{"id": "C152", "title": "Observers of a compile-time observable get one value after another", "statement": "Each observer of a compile-time observable is called for one value at a time, and all observers get the values in the same order.", "quantifier": "all numbers of observers, threads and notifications, all interleavings and nestings", "why_tests_cant": "Depends on the interleaving of threads and on what functions do.", "anchors": ["include/xitren/comm/observer_static.hpp:52-57", "include/xitren/comm/observer_static.hpp:73-77"]}
{"id": "C153", "title": "Messages are passed on by pointer, in order", "statement": "A message that a module sends makes the manager call its hook and then receive of each module that sends another type, once each, in the order of registration and with one pointer and size; there each finds the bytes of the message with all that has been written to them since the sending began; data of a module that does not override receive gets the value of the bytes found, and is the first thing called. A message of the manager makes it call receive of each module that does not send its type, once each, in order.", "quantifier": "all modules, message types, callbacks, overrides of receive and hooks that send, read, write, acquire and release memory, all pointers and sizes, all nestings", "why_tests_cant": "Needs all programs in the callbacks and all ways in which messages share memory.", "anchors": ["include/xitren/comm/mediator.hpp:147-203", "include/xitren/comm/mediator.hpp:214-250", "include/xitren/comm/mediator.hpp:308-319", "include/xitren/comm/mediator.hpp:339-348"]}
{"id": "C154", "title": "Modules cannot change what other modules get", "statement": "What a module does with a message, including an override of receive that writes through the pointer it gets, does not change what other modules get.", "quantifier": "all modules, overrides of receive, hooks, messages of modules and of the manager", "why_tests_cant": "Needs all overrides and all orders of registration.", "anchors": ["include/xitren/comm/mediator.hpp:162-168", "include/xitren/comm/mediator.hpp:308-319", "include/xitren/comm/mediator.hpp:339-348"]}
{"id": "C155", "title": "The memory of a message is valid while it is needed", "statement": "Callbacks may use the message they are given and keep the pointer, and a module may send from memory that is released by a callback, without anything undefined happening.", "quantifier": "all callbacks, overrides of receive and hooks, all memory that programs acquire and release, all nestings", "why_tests_cant": "Use of memory after its end does not show in tests.", "anchors": ["include/xitren/comm/mediator.hpp:147-153", "include/xitren/comm/mediator.hpp:177-181", "include/xitren/comm/mediator.hpp:191-203", "include/xitren/comm/mediator.hpp:312-318"]}
{"id": "C156", "title": "The failure callback may use the heap", "statement": "A failure callback may do with the heap whatever any caller may do - allocate, release, write, be called again for a request of its own, store another function, throw - and the heap stays consistent: live blocks are aligned, inside the buffer and disjoint, their contents are kept, the sizes reported are exact. Every request that fails while a function is stored calls that function exactly once before it comes back, nothing else calls it, and the request then returns nullptr or passes on the exception.", "quantifier": "all programs and callbacks (code that may depend on everything that happened), all nestings, all sizes and places of the heap", "why_tests_cant": "Needs all programs inside the callback and all nestings of failures.", "anchors": ["include/xitren/allocators/static_heap.hpp:160-164", "include/xitren/allocators/static_heap.hpp:166-301", "include/xitren/allocators/static_heap.hpp:367-381"]}
{"id": "C157", "title": "A request that comes back with nullptr could not be met", "statement": "A request returns nullptr only if, when it returns, no gap between the live blocks is large enough for it; a callback that makes room lets the request succeed.", "quantifier": "all programs and callbacks, all sizes", "why_tests_cant": "Needs all callbacks and all states of the heap.", "anchors": ["include/xitren/allocators/static_heap.hpp:226-297", "include/xitren/allocators/static_heap.hpp:300"]}
{"id": "C158", "title": "Failure callbacks come to an end and may replace themselves", "statement": "Whatever failure callbacks do, a program that uses the heap by its rules meets nothing undefined and its calls come back: a callback may ask for memory, and may store another function or none in its place.", "quantifier": "all programs and callbacks, all nestings", "why_tests_cant": "Use of a destroyed function object does not show in tests; endless recursion needs the right state of the heap.", "anchors": ["include/xitren/allocators/static_heap.hpp:160-164", "include/xitren/allocators/static_heap.hpp:293-295", "include/xitren/allocators/static_heap.hpp:534"]}
{"id": "C159", "title": "A heap and a copy of it", "statement": "A static_heap can be copied. The copy is a heap of its own: what one of the two hands out does not overlap what the other hands out, and a copy whose original is not used any more behaves as the original would have.", "quantifier": "all states of the heap, all requests to both, all continuations on the copy", "why_tests_cant": "Two allocators over one buffer show only when both are used, in the right order.", "anchors": ["include/xitren/allocators/static_heap.hpp:384-422", "include/xitren/allocators/static_heap.hpp:213-214", "include/xitren/allocators/static_heap.hpp:534-546"]}
{"id": "C160", "title": "A cache after exceptions", "statement": "Whatever is thrown while keys and values are copied, compared, hashed or stored by put, the cache never lists more than Size entries, lists only entries that were put as they are, and maps a key to what was put for it or, after an exception, to a default entry; the next call is defined.", "quantifier": "all histories of put, an exception at any point of any call", "why_tests_cant": "Exceptions from copying and from allocation are hardly ever tested, and not at every point.", "anchors": ["include/xitren/cache/lru.hpp:34-61"]}
{"id": "C161", "title": "A put that throws changes nothing", "statement": "A call of put that ends with an exception of the user's or of the allocation leaves the cache as it was.", "quantifier": "all caches, all points at which put may throw", "why_tests_cant": "Needs an exception at each point, in each state.", "anchors": ["include/xitren/cache/lru.hpp:40-47", "include/xitren/cache/lru.hpp:54-59"]}
{"id": "C162", "title": "Functions of observed values that are replaced while they run", "statement": "on_update may be called at any time, also from inside functions and for the object whose function is running. This is undefined exactly if a function uses something it captured after its object has been given another function (or none) since that call of the function; never if functions use their captures only before they call on_update or update something, and never if no function calls on_update.", "quantifier": "all programs and functions (which may depend on everything that happened), all nestings, all registrations", "why_tests_cant": "Use of a destroyed function object mostly shows nothing in tests; which calls destroy it depends on the nesting.", "anchors": ["include/xitren/comm/values/observed.hpp:35-39", "include/xitren/comm/values/observed.hpp:74-81", "include/xitren/comm/values/observed.hpp:84"]}
{"id": "C163", "title": "Which function an observed value calls", "statement": "An observed object that is notified calls the function that on_update was given last, with the value it is told and after that value can be read, also if the function was given during the same update by another function; it calls nothing if it has none, and functions are called at no other time. Every update tells all registered objects once and in order, whatever functions are replaced meanwhile.", "quantifier": "all programs and functions (which may depend on everything that happened), all nestings, all registrations", "why_tests_cant": "Needs all programs inside functions and all nestings.", "anchors": ["include/xitren/comm/values/observed.hpp:35-45", "include/xitren/comm/values/observed.hpp:58-81", "include/xitren/comm/values/observable.hpp:132-146", "include/xitren/comm/values/observable.hpp:230-239", "include/xitren/comm/values/observable.hpp:472-479"]}
{"id": "C164", "title": "Lifetimes of managers and modules", "statement": "Any number of managers and modules may be constructed, copied, assigned and destroyed. The behaviour is defined exactly if objects exist when used, there is room for a new module, no listed module is destroyed while its manager is full, a module's manager exists when the module sends or is destroyed, and all modules a manager lists exist when it sends. If managers are not copied and outlive their modules, a message of a manager reaches exactly the modules that were constructed with it, exist and send another type, each once, and nothing is undefined.", "quantifier": "all histories of construction, copies, assignment, destruction and messages of any number of managers and modules", "why_tests_cant": "Needs all interleavings of the lifetimes of many objects; use of a destroyed manager does not show in tests.", "anchors": ["include/xitren/comm/mediator.hpp:24", "include/xitren/comm/mediator.hpp:31-36", "include/xitren/comm/mediator.hpp:135", "include/xitren/comm/mediator.hpp:140", "include/xitren/comm/mediator.hpp:277-301", "include/xitren/comm/mediator.hpp:308-319", "include/xitren/comm/mediator.hpp:339-348", "include/xitren/comm/mediator.hpp:375-380"]}
{"id": "C165", "title": "Copies of modules", "statement": "A module may be copied or moved (into a vector, out of a function); the copy sends as the original does, gets the messages that a constructed module gets, and may be destroyed at any time.", "quantifier": "all histories without copies of managers, all modules, all places", "why_tests_cant": "Copies are made implicitly, and nothing fails when a copy gets no messages.", "anchors": ["include/xitren/comm/mediator.hpp:124-140", "include/xitren/comm/mediator.hpp:288-301", "include/xitren/comm/mediator.hpp:308-319"]}
{"id": "C166", "title": "Copies of managers", "statement": "A copy of a manager may be used like the original: it reaches the modules that the original reaches, whatever modules are constructed and destroyed afterwards; a manager that is assigned to still reaches its modules.", "quantifier": "all histories, all managers and modules, all messages", "why_tests_cant": "Dangling pointers in the list of a copy show only when it sends after a module was destroyed.", "anchors": ["include/xitren/comm/mediator.hpp:264-270", "include/xitren/comm/mediator.hpp:288-301", "include/xitren/comm/mediator.hpp:308-319", "include/xitren/comm/mediator.hpp:375-380"]}
{"id": "C167", "title": "Texts pass through the command line", "statement": "For every text, passing it as the value of a string option sets the field to that text.", "quantifier": "all texts, registrations, other arguments and initial values", "why_tests_cant": "Needs all texts, the empty one and those with white space among them.", "anchors": ["include/xitren/func/argv_parser.hpp:64-83"]}
{"id": "C168", "title": "Two parses are one", "statement": "Parsing two lists of arguments one after the other with the same parser gives what parsing them as one list gives, and parsing the same list again changes nothing.", "quantifier": "all registrations, all lists of arguments, all initial values", "why_tests_cant": "Needs all pairs of lists and all places to split them.", "anchors": ["include/xitren/func/argv_parser.hpp:33-41", "include/xitren/func/argv_parser.hpp:67-83"]}
{"id": "C169", "title": "The order of the options does not matter", "statement": "Options with their values (which are not names of options) and flags may be given in any order if no option is given twice except flags; options that are registered and not given have no influence; tokens that are neither names nor values may be left out.", "quantifier": "all registrations, all permutations of any number of options, all arguments before and after them, all initial values", "why_tests_cant": "Needs all permutations and all values.", "anchors": ["include/xitren/func/argv_parser.hpp:33-41", "include/xitren/func/argv_parser.hpp:67-83"]}
{"id": "C170", "title": "Packets can be changed in place", "statement": "A packet built from a header and fields may be changed through the references that header() and fields() return: it then holds what was written last, and it stays valid.", "quantifier": "all header, field and CRC types, all sequences of writes", "why_tests_cant": "Needs all checks and all pairs of contents.", "anchors": ["include/xitren/func/packet.hpp:53-62", "include/xitren/func/packet.hpp:76-80", "include/xitren/func/packet.hpp:94-104"]}
{"id": "C171", "title": "Packets share a buffer", "statement": "Any number of packets may be serialized into one buffer: this is defined exactly if every packet lies within the buffer, the buffer keeps its size, bytes that no packet covers keep their values, and a packet no later one overlaps is read back as it was. In particular packets written one behind the other are all read back, valid, with their headers and fields.", "quantifier": "all header, field and CRC types, all buffers, all sequences of packets and positions, overlapping ones among them", "why_tests_cant": "Needs all ways in which packets overlap.", "anchors": ["include/xitren/func/packet.hpp:45-49", "include/xitren/func/packet.hpp:124-139"]}
{"id": "C172", "title": "Packets and accessors read each other", "statement": "With the same types, the bytes a packet_accessor writes for a frame without elements are the bytes of the packet of that header and these fields, and a packet_accessor that receives the bytes of a packet decodes a valid frame with its header and fields and no elements.", "quantifier": "all header, field and CRC types, headers, fields, sizes of elements, storages and previous contents", "why_tests_cant": "Two implementations of one format that share no code; needs all types and contents.", "anchors": ["include/xitren/func/packet.hpp:53-62", "include/xitren/func/packet.hpp:193-237"]}
{"id": "C173", "title": "The type of the elements is not part of a frame", "statement": "A frame written with elements of one size and read with elements of another is valid with the same header, fields and payload, cut into elements of the other size, if that divides the size of the payload, and otherwise rejected without data. deserialize_no_check gives in both cases the whole elements between fields and CRC, none of which reaches into the CRC.", "quantifier": "all header, field and CRC types, inputs, storages and pairs of sizes of elements", "why_tests_cant": "Needs all pairs of sizes and all numbers of elements.", "anchors": ["include/xitren/func/packet.hpp:178-237"]}
{"id": "C174", "title": "A handler of a stage that throws", "statement": "If the handler of a pipeline_stage throws for an item, the other items are handled all the same.", "quantifier": "all item types, numbers of slots, schedules and handlers, where throwing may depend on the item and on all items before it", "why_tests_cant": "Needs all schedules and all handlers; the program ends, so that nothing is left to look at.", "anchors": ["include/xitren/comm/pipeline_stage.hpp:103-138"]}
{"id": "C175", "title": "A handler of a pool that throws", "statement": "If the handler of a pipeline_stage_pool throws for an item, only that item is lost; the items of the other workers in particular are handled.", "quantifier": "all item types, numbers of slots and workers, schedules and handlers, where throwing may depend on the worker, the item and on all items this worker got before", "why_tests_cant": "Needs all schedules of several workers and all handlers.", "anchors": ["include/xitren/comm/pipeline_stage_pool.hpp:55-99"]}
{"id": "C176", "title": "A function of an interval_event that throws", "statement": "If the function throws it is called again in the next interval, and once stop() has returned no exception comes any more.", "quantifier": "all schedules, clocks, periods and sets of calls that throw", "why_tests_cant": "Needs all schedules of the worker and of threads that call stop().", "anchors": ["include/xitren/func/interval_event.hpp:41-61", "include/xitren/func/interval_event.hpp:70-78"]}
{"id": "C177", "title": "Vectors that share a heap", "statement": "Vectors that take their memory from one static_heap through static_heap_allocator hold exactly what was pushed into and assigned in each of them, whatever the others do and however often they grow; a push throws exactly if the vector is full and the heap has no gap for the larger block, and then leaves all vectors and the free size as they were; when the vectors are destroyed the heap is as free as at the start.", "quantifier": "all heap sizes and addresses with room for a block, numbers of vectors, element sizes, growth policies and histories of pushes, removals, assignments and destructions", "why_tests_cant": "Needs all histories of several containers that interleave; a test has one interleaving and one growth policy.", "anchors": ["include/xitren/allocators/static_heap_allocator.hpp:42-56", "include/xitren/allocators/static_heap.hpp:allocate", "include/xitren/allocators/static_heap.hpp:deallocate"]}
{"id": "C178", "title": "Observers of a fixed-capacity observable that throw", "statement": "If data() or disconnect() of an observer of a fixed-capacity observable throws, the other observers are still told and the exception reaches the caller of notify_observers() or clear_observers(); before that everything is as if nobody threw.", "quantifier": "all capacities, sets of observers, histories and callbacks that call back into the observable and throw anywhere, depending on the user's state", "why_tests_cant": "Needs all callbacks and histories; where the claim fails the program ends, so that nothing is left to look at.", "anchors": ["include/xitren/comm/observer.hpp:39-43", "include/xitren/comm/observer.hpp:133-140", "include/xitren/comm/observer.hpp:150-163"]}
{"id": "C179", "title": "Observers of a compile-time observable that throw", "statement": "If notification_impl() of an observer of a compile-time observable throws, the observers behind it are still called and the exception reaches the caller of notify(); if none throws, all are called.", "quantifier": "all non-empty lists of observers, values, states of the user and functions, where throwing may depend on all that the functions before it did", "why_tests_cant": "Needs all lists and functions; where the claim fails the program ends.", "anchors": ["include/xitren/comm/observer_static.hpp:26-30", "include/xitren/comm/observer_static.hpp:54-59", "include/xitren/comm/observer_static.hpp:77-81"]}
{"id": "C180", "title": "Functions of a value that throw", "statement": "If the on_update function of an object observing a fixed-capacity value observable, or its disconnect(), throws, the other objects still get the value and the exception reaches the caller of the operator; before that everything is as if nothing threw.", "quantifier": "all integral types, capacities, sets of objects, histories of all operators and functions that call back into the observable and throw anywhere, depending on the user's state", "why_tests_cant": "Needs all functions and histories; where the claim fails the program ends.", "anchors": ["include/xitren/comm/values/observable.hpp:36-146", "include/xitren/comm/values/observable.hpp:213-239", "include/xitren/comm/values/observed.hpp:58-62", "include/xitren/comm/values/observed.hpp:74-81"]}
{"id": "C181", "title": "Functions of a dynamic value that throw", "statement": "If the on_update function of an object observing a dynamic value observable, or its disconnect(), throws, the other objects still get the value and the exception reaches the caller of the operator; before that everything is as if nothing threw.", "quantifier": "all integral types, sets of objects, histories of all operators and functions that call back into the observable and throw anywhere, depending on the user's state", "why_tests_cant": "Needs all functions and histories; where the claim fails the program ends.", "anchors": ["include/xitren/comm/values/observable.hpp:282-392", "include/xitren/comm/values/observable.hpp:455-479", "include/xitren/comm/values/observed.hpp:58-62", "include/xitren/comm/values/observed.hpp:74-81"]}
