{
 "claims": [
  {
   "property": "C01",
   "status": "proved",
   "theorems": [
    "Verif.Base64.C01_base64_roundtrip"
   ],
   "note": "all inputs and buffer sizes"
  },
  {
   "property": "C02",
   "status": "proved",
   "theorems": [
    "Verif.Base64.C02_base64_encode_rfc4648"
   ],
   "note": "against arithmetic RFC 4648 spec"
  },
  {
   "property": "C03",
   "status": "proved",
   "theorems": [
    "Verif.Base64.C03_base64_encode_buffer"
   ],
   "note": "exact contents of the whole output object"
  },
  {
   "property": "C04",
   "status": "proved",
   "theorems": [
    "Verif.Base64.C04_base64_encode_alloc"
   ],
   "note": "all 64-bit lengths, malloc oracle"
  },
  {
   "property": "C05",
   "status": "proved",
   "theorems": [
    "Verif.Base64.C05_base64_decode_language",
    "Verif.Base64.C05_language_length",
    "Verif.Base64.C05_language_functional"
   ],
   "note": "non-canonical trailing bits are accepted by the code and by the spec"
  },
  {
   "property": "C06",
   "status": "proved",
   "theorems": [
    "Verif.Base64.C06_base64_decode_buffer"
   ],
   "note": ""
  },
  {
   "property": "C07",
   "status": "proved",
   "theorems": [
    "Verif.Base64.C07_base64_decode_alloc"
   ],
   "note": ""
  },
  {
   "property": "C08",
   "status": "proved",
   "theorems": [
    "Verif.Base64.C08_base64_injective",
    "Verif.Base64.C08_base64_encode_injective",
    "Verif.Base64.C08_base64_reencode"
   ],
   "note": ""
  },
  {
   "property": "C09",
   "status": "proved",
   "theorems": [
    "Verif.Base64.C09_web64_roundtrip",
    "Verif.Base64.C09_web64_url_safe"
   ],
   "note": ""
  },
  {
   "property": "C10",
   "status": "proved",
   "theorems": [
    "Verif.Base64.C10_web64_encode_buffer",
    "Verif.Base64.C10_web64_decode_language",
    "Verif.Base64.C10_web64_decode_buffer"
   ],
   "note": ""
  },
  {
   "property": "C100",
   "status": "partial",
   "theorems": [
    "Verif.Txml.C100_any_prefix_defined_partial",
    "Verif.Txml.C100_resume",
    "Verif.Txml.C100_refuted_list_in_list",
    "Verif.Txml.C100_refuted_same_key",
    "Verif.Txml.C100_refuted_all"
   ],
   "note": "all prefixes of all documents, for objects whose keys differ and without lists directly in lists; false for all others whose document has that key (C100_refuted_all)"
  },
  {
   "property": "C101",
   "status": "proved",
   "theorems": [
    "Verif.Txml.C101_load_from_file",
    "Verif.Txml.C101_cannot_open",
    "Verif.Txml.C101_succeeds"
   ],
   "note": "all contents, all points of failure, any XML parser"
  },
  {
   "property": "C102",
   "status": "proved",
   "theorems": [
    "Verif.Txml.C102_switch",
    "Verif.Txml.C102_white_space"
   ],
   "note": "all texts without NUL"
  },
  {
   "property": "C103",
   "status": "partial",
   "theorems": [
    "Verif.Txml.C103_number_partial",
    "Verif.Txml.C103_no_number",
    "Verif.Txml.C103_out_of_range",
    "Verif.Txml.C103_refuted_wraps",
    "Verif.Txml.C103_refuted_all"
   ],
   "note": "all numbers that the type has, and what 64 bit types do with others; 8 and 32 bit types wrap around, for all numbers of 64 bits that they do not have"
  },
  {
   "property": "C104",
   "status": "partial",
   "theorems": [
    "Verif.Txml.C104_whole_string_partial",
    "Verif.Txml.C104_refuted_long_string",
    "Verif.Txml.C104_refuted_negative_length"
   ],
   "note": "all strings shorter than 2^31 bytes; false for longer ones"
  },
  {
   "property": "C105",
   "status": "partial",
   "theorems": [
    "Verif.QueueApi.C105_fifo_and_registers",
    "Verif.QueueApi.C105_refuted_no_boxes",
    "Verif.QueueApi.C105_refuted_no_boxes_all",
    "Verif.QueueApi.C105_refuted_overflow"
   ],
   "note": "all histories with 1 to 32768 boxes and fewer than 2^32 bytes per queue; one call is one step (interleavings: C54-C57); false for no boxes and for sizes of 2^32 bytes (witnesses)"
  },
  {
   "property": "C106",
   "status": "partial",
   "theorems": [
    "Verif.QueueApi.C106_failed_connect_partial",
    "Verif.QueueApi.C106_refuted_lock_kept",
    "Verif.QueueApi.C106_refuted_handle_dead",
    "Verif.QueueApi.C106_refuted_mismatch"
   ],
   "note": "holds for connected handles and missing key files; false for lack of memory (the lock is kept, the handle is dead) and for other parameters (NULL is dereferenced), in every reachable state"
  },
  {
   "property": "C107",
   "status": "partial",
   "theorems": [
    "Verif.QueueApi.C107_unconnected_partial",
    "Verif.QueueApi.C107_refuted_register"
   ],
   "note": "all calls except registers 0 to 11, which dereference NULL in every reachable state"
  },
  {
   "property": "C108",
   "status": "partial",
   "theorems": [
    "Verif.Url.C108_unescape_text_partial",
    "Verif.Url.C108_applies",
    "Verif.Url.C108_exact_partial",
    "Verif.Url.C108_does_total",
    "Verif.Url.C108_does_of_unesc",
    "Verif.Url.C108_refuted",
    "Verif.Url.C108_refuted_all",
    "Verif.Url.C108_refuted_digits"
   ],
   "note": "all texts whose %u escapes are of four digits, below U+0800, not U+007F and not followed by a digit; false for all other %uXXXX, in every context: characters from U+0800 on and U+007F disappear, digits that follow are taken as well; the output for every text is proved against a relation that says what is written for any %u"
  },
  {
   "property": "C109",
   "status": "partial",
   "theorems": [
    "Verif.Url.C109_preunescape_text_partial",
    "Verif.Url.C109_applies",
    "Verif.Url.C109_refuted",
    "Verif.Url.C109_refuted_all",
    "Verif.Url.C109_refuted_exact"
   ],
   "note": "all texts without \\xXY for bytes below 0x80, which disappear (for all texts with one), and buffers with one byte more than needed; without that byte, a %XY at the end is not written (for all such texts)"
  },
  {
   "property": "C11",
   "status": "proved",
   "theorems": [
    "Verif.Base58.C11_base58_encode_text",
    "Verif.Base58.C11_text_unique"
   ],
   "note": "calloc success assumed (the code does not check it)"
  },
  {
   "property": "C110",
   "status": "partial",
   "theorems": [
    "Verif.MapApi.C110_layout_partial",
    "Verif.MapApi.C110_refuted"
   ],
   "note": "all maps whose nodes and stack take less than 2 GiB; false for 4 GiB of nodes: the sizes are computed in 32 bits (witness)"
  },
  {
   "property": "C111",
   "status": "proved",
   "theorems": [
    "Verif.MapApi.C111_shared_finite_maps"
   ],
   "note": "all histories; one call is one step (interleavings: C51, C52); without the failures of C112"
  },
  {
   "property": "C112",
   "status": "partial",
   "theorems": [
    "Verif.MapApi.C112_failed_connect_partial",
    "Verif.MapApi.C112_refuted_connected",
    "Verif.MapApi.C112_refuted_dead",
    "Verif.MapApi.C112_refuted_null"
   ],
   "note": "holds for missing key files and for maps of other parameters that are no smaller; false in every reachable state for connected objects (they are disconnected) and for failures after the semaphores are found (the object can never be connected again, its operations dereference NULL)"
  },
  {
   "property": "C113",
   "status": "partial",
   "theorems": [
    "Verif.MapApi.C113_mapped_while_connected_partial",
    "Verif.MapApi.C113_refuted_never_unmapped",
    "Verif.MapApi.C113_refuted"
   ],
   "note": "at least once per connected object, for all histories; never unmapped, for all calls in all states"
  },
  {
   "property": "C114",
   "status": "partial",
   "theorems": [
    "Verif.MapApi.C114_unconnected_partial",
    "Verif.MapApi.C114_refuted",
    "Verif.MapApi.C112_refuted_null"
   ],
   "note": "all operations, also in sequence; false for begin, and after a connect that failed late"
  },
  {
   "property": "C115",
   "status": "partial",
   "theorems": [
    "Verif.MapApi.C115_killed_in_attach_partial",
    "Verif.MapApi.C115_refuted_stuck",
    "Verif.MapApi.C115_refuted_spins",
    "Verif.MapApi.C115_refuted_phantom",
    "Verif.MapApi.C115_refuted_lost"
   ],
   "note": "all crash points are classified: harmless, connect throws for ever, reads that do not end, lost entries"
  },
  {
   "property": "C116",
   "status": "partial",
   "theorems": [
    "Verif.RwLock.C116_signals_partial",
    "Verif.RwLock.C116_refuted",
    "Verif.RwLock.C116_refuted_unlock",
    "Verif.RwLock.C116_refuted_forever"
   ],
   "note": "holds for all schedules with interrupted operations; false for an interrupted connect in every reachable state with a writer"
  },
  {
   "property": "C117",
   "status": "partial",
   "theorems": [
    "Verif.MapSys.C117_atomic_partial",
    "Verif.MapSys.C117_no_ub_partial",
    "Verif.MapSys.C117_spec_sequential",
    "Verif.MapSys.C117_spec_killed",
    "Verif.MapSys.C117_refuted"
   ],
   "note": "all schedules of single accesses and all kills except between the two writes of free_nodes.push and inside clear; false for a kill there (witness)"
  },
  {
   "property": "C118",
   "status": "partial",
   "theorems": [
    "Verif.MapSys.C118_ends_partial",
    "Verif.MapSys.C118_no_deadlock_partial",
    "Verif.MapSys.C118_refuted"
   ],
   "note": "all schedules and all kills except at the two places of C117; after a kill there a read never ends and no one can write any more (witness)"
  },
  {
   "property": "C119",
   "status": "partial",
   "theorems": [
    "Verif.MapSys.C119_granted_partial",
    "Verif.MapSys.C119_refuted"
   ],
   "note": "false: readers that overlap keep a writer waiting for any number of calls; what holds is that it gets the lock when nobody has it"
  },
  {
   "property": "C12",
   "status": "proved",
   "theorems": [
    "Verif.Base58.C12_base58_decode_encode"
   ],
   "note": ""
  },
  {
   "property": "C120",
   "status": "partial",
   "theorems": [
    "Verif.LogText.C120_entries_partial",
    "Verif.LogText.C120_one_line_partial",
    "Verif.LogText.C120_refuted",
    "Verif.LogText.C120_refuted_err",
    "Verif.LogText.C120_refuted_name",
    "Verif.LogText.C120_refuted_name_all"
   ],
   "note": "all histories of messages without newlines: every line but empty ones is the entry of a call; false for log_err, which adds an empty line, for newlines in arguments, and for names whose buffer is reused (witnesses)"
  },
  {
   "property": "C121",
   "status": "proved",
   "theorems": [
    "Verif.LogText.C121_sorted",
    "Verif.LogText.C121_refuted_year",
    "Verif.LogText.C121_refuted_all"
   ],
   "note": "all pairs of messages and times; years from 10000 to 19999 sort before those from 2000 to 9999 (C121_refuted_all)"
  },
  {
   "property": "C122",
   "status": "partial",
   "theorems": [
    "Verif.LogText.C122_what_partial",
    "Verif.LogText.C122_errno_partial",
    "Verif.LogText.C122_refuted"
   ],
   "note": "all texts without NUL, cut after 4095 bytes; for messages of that length the error number is lost (proved for all of them)"
  },
  {
   "property": "C123",
   "status": "partial",
   "theorems": [
    "Verif.SigLog.C123_handled_partial",
    "Verif.SigLog.C123_refuted"
   ],
   "note": "all schedules in which no signal arrives at a thread inside of localtime_r; false otherwise, in every reachable state: the handler logs before it sets its flag, and waits for a lock that its own thread holds"
  },
  {
   "property": "C124",
   "status": "partial",
   "theorems": [
    "Verif.Load.C124_loaded_partial",
    "Verif.Load.C124_results_partial",
    "Verif.Load.C124_comes_up_partial",
    "Verif.Load.C124_refuted"
   ],
   "note": "all options and outcomes; false as to the status: the parent exits with 0 right after the fork, whatever happens then (proved for all environments)"
  },
  {
   "property": "C125",
   "status": "partial",
   "theorems": [
    "Verif.Load.C125_die_partial",
    "Verif.Load.C125_refuted"
   ],
   "note": "all contexts with braces; false after an if without braces, for all conditions: the macro is two statements"
  },
  {
   "property": "C126",
   "status": "partial",
   "theorems": [
    "Verif.MapSys.C126_snapshot_partial",
    "Verif.MapSys.C126_undisturbed_partial",
    "Verif.MapSys.C117_atomic_partial",
    "Verif.MapSys.C117_refuted"
   ],
   "note": "all sections, schedules and kills except kills at the two places of C117 (C117_refuted)"
  },
  {
   "property": "C127",
   "status": "partial",
   "theorems": [
    "Verif.MapIter.C127_iteration_partial",
    "Verif.MapIter.C127_no_ub_partial",
    "Verif.MapIter.C127_ends_partial",
    "Verif.MapIter.C127_refuted",
    "Verif.MapIter.C127_refuted_twice",
    "Verif.MapIter.C127_refuted_ub"
   ],
   "note": "holds for loops between lock_read_rw and unlock_read_rw; the iterator takes no lock itself: without one it misses entries, sees them twice, or reads before the pool (witnesses)"
  },
  {
   "property": "C128",
   "status": "partial",
   "theorems": [
    "Verif.VarBox.C128_messages_partial",
    "Verif.VarBox.C128_same_object_partial",
    "Verif.VarBox.C128_refuted_lost",
    "Verif.VarBox.C128_refuted_ub",
    "Verif.VarBox.C128_refuted_default"
   ],
   "note": "all classes and lists of messages when get is called with new objects of the least size, or the sizes do not decrease; false otherwise (proved for all classes): get tests the size of the object passed to it, not of the message"
  },
  {
   "property": "C129",
   "status": "partial",
   "theorems": [
    "Verif.QueueMake.C129_connect_partial",
    "Verif.QueueMake.C129_progress_partial",
    "Verif.QueueMake.C129_refuted_lock",
    "Verif.QueueMake.C129_refuted_count",
    "Verif.QueueMake.C129_refuted_memory"
   ],
   "note": "all runs in which no process begins to connect while another makes the semaphores; false for processes that make them at the same time (proved for all parameters)"
  },
  {
   "property": "C13",
   "status": "proved",
   "theorems": [
    "Verif.Base58.C13_base58_encode_decode",
    "Verif.Base58.C13_text_injective"
   ],
   "note": ""
  },
  {
   "property": "C130",
   "status": "partial",
   "theorems": [
    "Verif.QueueMake.C130_kills_partial",
    "Verif.QueueMake.C129_connect_partial",
    "Verif.QueueMake.C130_refuted_stuck",
    "Verif.QueueMake.C130_refuted_crash"
   ],
   "note": "all kill points except four; at these nobody can ever connect again, whatever happens (proved for all continuations)"
  },
  {
   "property": "C131",
   "status": "partial",
   "theorems": [
    "Verif.StrHeap.C131_partial",
    "Verif.StrHeap.C131_refuted_again"
   ],
   "note": "all histories with strings of all lengths but one (C75_refuted); a second free or a use after free is undefined for every storage that got a string (proved)"
  },
  {
   "property": "C132",
   "status": "partial",
   "theorems": [
    "Verif.StrHeap.C132_noalloc_partial",
    "Verif.StrHeap.C132_find_partial",
    "Verif.StrHeap.C132_first_partial",
    "Verif.StrHeap.C132_refuted_realloc",
    "Verif.StrHeap.C132_refuted_all",
    "Verif.StrHeap.C132_refuted_null",
    "Verif.StrHeap.C132_refuted_leak",
    "Verif.StrHeap.C132_refuted_lost"
   ],
   "note": "calls that need no memory, and the first addition; false for others: strings lost, NULL dereferenced, memory lost (witnesses; for all storages whose root is to grow: C132_refuted_all)"
  },
  {
   "property": "C133",
   "status": "partial",
   "theorems": [
    "Verif.CacheThrow.C133_new_partial",
    "Verif.CacheThrow.C133_insert_partial",
    "Verif.CacheThrow.C133_old_partial",
    "Verif.CacheThrow.C133_refuted_value",
    "Verif.CacheThrow.C133_refuted_crash"
   ],
   "note": "Proved: a set whose insertion throws has no effect in any history; one whose assignment throws follows no bad pointer, keeps list and table consistent, and for new keys also the accounted size; the exact contents. Refuted in general: the value left by the failed assignment can be got after any history; and for any cache, key and values the sequence set, throwing set, erase, smaller set dereferences NULL."
  },
  {
   "property": "C134",
   "status": "partial",
   "theorems": [
    "Verif.SigProc.C134_alive_partial",
    "Verif.SigProc.C134_noticed_partial",
    "Verif.SigProc.C134_rest_partial",
    "Verif.SigProc.C134_mask",
    "Verif.SigProc.C134_mask_result",
    "Verif.SigProc.C134_only",
    "Verif.SigProc.C134_cleared",
    "Verif.SigProc.C134_nested",
    "Verif.SigProc.C134_nested_norestart",
    "Verif.SigProc.C134_blocked",
    "Verif.SigProc.C134_refuted_reset"
   ],
   "note": "Proved for all runs after coda_signal_init, and after coda_signal_init_norestart if no former action had SA_RESETHAND; in that case refuted for every handled signal."
  },
  {
   "property": "C135",
   "status": "partial",
   "theorems": [
    "Verif.SigProc.C135_interrupts_partial",
    "Verif.SigProc.C135_one_more",
    "Verif.SigProc.C135_refuted_restart",
    "Verif.SigProc.C135_refuted_race"
   ],
   "note": "Proved: with coda_signal_init_norestart a signal delivered during the call ends the loop; with either, at most one more call begins and returns once the flag is set. Refuted: with coda_signal_init the call goes on, however many signals arrive; with coda_signal_init_norestart a signal between test and call is overslept."
  },
  {
   "property": "C136",
   "status": "partial",
   "theorems": [
    "Verif.QueueOpt.C136_partial",
    "Verif.QueueOpt.C136_refuted_negative",
    "Verif.QueueOpt.C136_refuted_undo"
   ],
   "note": "Proved for all histories without SEM_UNDO and negative times. Refuted in general: a negative time fails at once, whatever is in the queue; after every history that leaves one box, a receipt with SEM_UNDO and an exit make another reader receive a box that does not exist, and the queue is dead for ever."
  },
  {
   "property": "C137",
   "status": "proved",
   "theorems": [
    "Verif.CacheRef.C137_pointer"
   ],
   "note": "for all histories: the pointer gives the current value exactly as long as the entry has never left the cache"
  },
  {
   "property": "C138",
   "status": "proved",
   "theorems": [
    "Verif.CacheRef.C138_dbg"
   ],
   "note": "numbers, order and addresses, not the text; the line time_max shows the current time minus the limit, as the code prints it"
  },
  {
   "property": "C139",
   "status": "partial",
   "theorems": [
    "Verif.CacheRef.C139_read_partial",
    "Verif.CacheRef.C139_empty_partial",
    "Verif.CacheRef.C139_refuted_dangling",
    "Verif.CacheRef.C139_refuted_shared",
    "Verif.CacheMove.C139_value_partial"
   ],
   "note": "Proved: a copy that is only asked for entries that are not outdated gives what the original contains, and its destruction leaves the original as it was; a copy of an empty cache is independent of it. Refuted in general: the implicit copy constructor copies pointers into the nodes of the original; when that is gone, the first new key set in the copy dereferences one (all histories)."
  },
  {
   "property": "C14",
   "status": "partial",
   "theorems": [
    "Verif.Base58.C14_base58_decode_reject_partial",
    "Verif.Base58.C14_base58_decode_accept",
    "Verif.Base58.C14_refuted",
    "Verif.Base58.C14_refuted_all"
   ],
   "note": "false for all texts with an invalid first character: they return 0, like the empty text; everything else proved"
  },
  {
   "property": "C140",
   "status": "proved",
   "theorems": [
    "Verif.CacheRef.C140_alias"
   ],
   "note": "for all histories and all pointers that can still be followed"
  },
  {
   "property": "C141",
   "status": "partial",
   "theorems": [
    "Verif.LogFile.C141_once_partial",
    "Verif.LogFile.C141_lines_partial",
    "Verif.LogFile.C141_refuted_torn",
    "Verif.LogFile.C141_refuted_mixed"
   ],
   "note": "Proved for all runs: each part of a line that is written is in one file, once, in the order of the thread's calls; whole lines if each line is one write. Refuted in general: a line that the C library writes in parts can be torn between two files or mixed with a line of another process."
  },
  {
   "property": "C142",
   "status": "partial",
   "theorems": [
    "Verif.LogFile.C142_switch_partial",
    "Verif.LogFile.C142_failed_partial",
    "Verif.LogFile.C142_refuted_two",
    "Verif.LogFile.C142_refuted_close"
   ],
   "note": "Proved for all schedules with one call of log_create at a time in the process, and, for failures, no failing close. Refuted in general: two calls at once may leave the file of one and the level of the other; if close fails, log_create returns -1 although the log has been switched."
  },
  {
   "property": "C143",
   "status": "proved",
   "theorems": [
    "Verif.GetOpt.C143_accepts",
    "Verif.GetOpt.C143_rejects",
    "Verif.GetOpt.C143_complete",
    "Verif.GetOpt.C143_returns",
    "Verif.GetOpt.C143_posix",
    "Verif.GetOpt.C143_posix_dashes",
    "Verif.GetOpt.C143_posix_rejects"
   ],
   "note": "for all command lines; getopt_long is modelled as glibc implements it, with and without POSIXLY_CORRECT"
  },
  {
   "property": "C144",
   "status": "partial",
   "theorems": [
    "Verif.GetOpt.C144_again_partial",
    "Verif.GetOpt.C144_refuted",
    "Verif.GetOpt.C144_retry_refuted",
    "Verif.GetOpt.C144_dashes_refuted"
   ],
   "note": "Proved for all command lines: a second call reads the operands of the first as its command line. Refuted: with ordinary operands it returns 0 with everything cleared; behind a mistake it goes on; words behind -- are taken for options."
  },
  {
   "property": "C145",
   "status": "proved",
   "theorems": [
    "Verif.QueueMsg.C145_ways",
    "Verif.QueueMsg.C145_all",
    "Verif.QueueMsg.C145_put",
    "Verif.QueueMsg.C145_full_refuted"
   ],
   "note": "for all numbers of processes and all schedules without kills and interrupted locks; the second part for rings of at most 32768 boxes. C145_full_refuted shows that the condition about a full ring is needed."
  },
  {
   "property": "C146",
   "status": "partial",
   "theorems": [
    "Verif.QueueMsg.C146_refuted",
    "Verif.QueueMsg.C146_zeros_refuted",
    "Verif.QueueKill.C146_phases_partial",
    "Verif.QueueKill.C146_refuted_back",
    "Verif.QueueKill.C146_refuted_dirty"
   ],
   "note": "Proved for all schedules (with kills, see C152) in which every process first writes, calls flush, and from then on only reads. Refuted for reading and then calling flush or put, for reading without a flush, and for classes whose deserialize accepts zero bytes."
  },
  {
   "property": "C147",
   "status": "partial",
   "theorems": [
    "Verif.Keys.C147_keys",
    "Verif.Keys.C147_queues_partial",
    "Verif.Keys.C147_maps_partial",
    "Verif.Keys.C147_refuted",
    "Verif.Keys.C147_refuted_message",
    "Verif.Keys.C147_refuted_many"
   ],
   "note": "Proved for all histories and all groups of handles if no two files agree in the low 16 bits of their number and the low 8 bits of the device. Refuted in general: files that agree in these are one file for every history; among any 65537 files of a device there are two. Calls are atomic here."
  },
  {
   "property": "C148",
   "status": "partial",
   "theorems": [
    "Verif.Keys.C148_refuted_map",
    "Verif.Keys.C148_refuted_queue"
   ],
   "note": "Refuted for all specified histories: the second class to connect waits for ever (and has changed nothing)."
  },
  {
   "property": "C149",
   "status": "proved",
   "theorems": [
    "Verif.MapCopy.C149_copies"
   ],
   "note": "for all histories of calls and copies; calls are atomic here"
  },
  {
   "property": "C15",
   "status": "proved",
   "theorems": [
    "Verif.Base58.C15_base58_encode_buffer",
    "Verif.Base58.C15_base58_encode_alloc",
    "Verif.Base58.C15_base58_decode_alloc",
    "Verif.Base58.C15_base58_decode_alloc_valid"
   ],
   "note": ""
  },
  {
   "property": "C150",
   "status": "partial",
   "theorems": [
    "Verif.QueueFork.C150_same_partial",
    "Verif.QueueFork.C150_ways_partial",
    "Verif.QueueFork.C150_refuted",
    "Verif.QueueFork.C150_refuted_reader"
   ],
   "note": "Proved for all schedules in which each fork comes after a flush of the parent or before its first call. Refuted otherwise: messages in the current box are sent by parent and child, and a box that is not read up is read by both."
  },
  {
   "property": "C151",
   "status": "partial",
   "theorems": [
    "Verif.QueueCopy.C151_partial",
    "Verif.QueueCopy.C151_refuted_destroy",
    "Verif.QueueCopy.C151_refuted_use",
    "Verif.QueueCopy.C151_refuted_mix",
    "Verif.QueueCopy.C151_refuted_leak"
   ],
   "note": "Proved for all histories in which only objects that are not connected are copied and assigned. Refuted for connected objects, after every such history: double release, use after release, mixed messages, leak."
  },
  {
   "property": "C152",
   "status": "partial",
   "theorems": [
    "Verif.QueueKill.C152_ways_partial",
    "Verif.QueueKill.C152_refuted",
    "Verif.QueueKill.C152_refuted_start"
   ],
   "note": "Proved for all schedules with kills everywhere but at three places. Refuted for the others: a reader killed inside of the memset leaves half a message that the next reader gets; a reader killed between start++ and the modulo makes the next one read outside of the boxes."
  },
  {
   "property": "C153",
   "status": "partial",
   "theorems": [
    "Verif.SerFail.C153_partial",
    "Verif.SerFail.C153_answer_partial",
    "Verif.SerFail.C153_bounds",
    "Verif.SerFail.C153_refuted",
    "Verif.SerFail.C153_refuted_twice",
    "Verif.SerFail.C153_refuted_room"
   ],
   "note": "Proved if serialize writes nothing when it returns false. Refuted, for every class, if it has written the message before: a message whose put returned false is got, even twice; and one whose put returned true is got twice. Every refused put also sends a box, which may be empty. One process; every flush finds room."
  },
  {
   "property": "C154",
   "status": "proved",
   "theorems": [
    "Verif.QueueRegs.C154_atomic",
    "Verif.QueueRegs.C154_no_deadlock",
    "Verif.QueueRegs.C154_ends",
    "Verif.QueueRegs.C154_no_counter"
   ],
   "note": "for all schedules, kills and interrupted calls; no deadlock with fewer than 32766 processes. C154_no_counter shows what is not promised: get and then set is not one operation."
  },
  {
   "property": "C155",
   "status": "partial",
   "theorems": [
    "Verif.QueueVar.C155_ways",
    "Verif.QueueVar.C155_ways_partial",
    "Verif.QueueVar.C155_all",
    "Verif.QueueVar.C155_bounds",
    "Verif.QueueVar.C155_put",
    "Verif.QueueVar.C155_refuted_lost",
    "Verif.QueueVar.C155_refuted_bounds"
   ],
   "note": "Proved for all runs without kills and, with kills, everywhere but at the three places of C152. Refuted for readers that reuse the object they got (a smaller message behind it is not got) and for objects smaller than every message (a read behind the end of the box)."
  },
  {
   "property": "C156",
   "status": "partial",
   "theorems": [
    "Verif.Base58Mem.C156_decode",
    "Verif.Base58Mem.C156_decode_alloc_partial",
    "Verif.Base58Mem.C156_encode_partial",
    "Verif.Base58Mem.C156_encode_alloc_partial",
    "Verif.Base58Mem.C156_refuted_number",
    "Verif.Base58Mem.C156_refuted_pointer",
    "Verif.Base58Mem.C156_refuted_encode",
    "Verif.Base58Mem.C156_refuted_leak"
   ],
   "note": "Proved for texts below 2.9 GB: no memory is lost whichever allocations fail, decoding never uses a null pointer, results are complete if no allocation fails. Refuted for every text: a failed malloc returns 1; a failed calloc gives 0 and a block unless the text begins with '1'; a failed calloc in encoding uses the null pointer; texts over 2.9 GB lose the scratch buffer."
  },
  {
   "property": "C157",
   "status": "partial",
   "theorems": [
    "Verif.MapNest.C157_exclusive",
    "Verif.MapNest.C157_grant",
    "Verif.MapNest.C157_read_partial",
    "Verif.MapNest.C157_kill_partial",
    "Verif.MapNest.C157_refuted",
    "Verif.MapNest.C157_refuted_others"
   ],
   "note": "Proved for all nestings: exclusion, when exactly each call returns, releases never wait, read inside of a read section does not wait (below 32767 readers), the end of a process gives back its locks. Refuted in general: an operation that writes inside of any section, and any operation that locks inside of a section that writes, waits for itself in every continuation, and all others with it, until it is killed."
  },
  {
   "property": "C158",
   "status": "partial",
   "theorems": [
    "Verif.MapNest.C158_fork_partial",
    "Verif.MapNest.C158_refuted_read",
    "Verif.MapNest.C158_refuted_write",
    "Verif.MapNest.C158_refuted_release",
    "Verif.MapNest.C158_refuted_orphan"
   ],
   "note": "Proved for forks outside of sections and for children that do not release what their parents hold. Refuted for children that go on in the section: a writer enters while the parent reads or writes, the release of the parent waits, and after a kill the lock stays taken forever."
  },
  {
   "property": "C159",
   "status": "partial",
   "theorems": [
    "Verif.SynqueCancel.C159_nowait_partial",
    "Verif.SynqueCancel.C159_outside_partial",
    "Verif.SynqueCancel.C159_refuted",
    "Verif.SynqueCancel.C159_witness"
   ],
   "note": "Proved for programs that never wait in get, and for all programs as long as no request finds its thread in pthread_cond_wait. Refuted: a thread cancelled while it waits in get ends with the mutex locked, and no call ever completes again (for all histories and continuations)."
  },
  {
   "property": "C16",
   "status": "partial",
   "theorems": [
    "Verif.Base58.C16_base58_encode_alloc_ret_partial",
    "Verif.Base58.C16_refuted",
    "Verif.Base58.C16_refuted_all"
   ],
   "note": "false of the code, which returns a size estimate: for all data of zero bytes only and all data with 70 bytes or more behind the leading zeros; upper bound proved"
  },
  {
   "property": "C160",
   "status": "partial",
   "theorems": [
    "Verif.Stream.C160_stream_partial",
    "Verif.Stream.C160_recv",
    "Verif.Stream.C160_pipe",
    "Verif.Stream.C160_refuted_send",
    "Verif.Stream.C160_refuted_large",
    "Verif.Stream.C160_refuted_told",
    "Verif.Stream.C160_refuted_recv"
   ],
   "note": "Proved for all conversations with calls of less than 2^31 bytes: the bytes told to be sent are those received. Refuted: send gives -1 when it is interrupted and may send only a part of its data; every send of 2^31 to 2^32 bytes that succeeds gives a number that is not positive although the bytes are under way, and such a receive gives -1 although the bytes are taken from the stream. Proved: a send to a closed end gives -1 and does not kill the sender."
  },
  {
   "property": "C161",
   "status": "partial",
   "theorems": [
    "Verif.MapTorn.C161_mixed_partial",
    "Verif.MapTorn.C161_word_partial",
    "Verif.MapTorn.C161_new_partial",
    "Verif.MapTorn.C161_exact",
    "Verif.MapTorn.C161_refuted"
   ],
   "note": "Proved for values of one word, for keys that are not bound, and for all keys other than the one inserted; for a bound key and longer values it is proved exactly which words are new. Refuted: whenever the kill falls between two words that change, the next read returns a value that is neither the old nor the new one, in whatever order the words are copied."
  },
  {
   "property": "C162",
   "status": "partial",
   "theorems": [
    "Verif.MapWords.C162_atomic_partial",
    "Verif.MapWords.C162_no_ub_partial",
    "Verif.MapWords.C162_refuted"
   ],
   "note": "Proved for all sizes, orders, schedules and all kills except at the places of C117 and between two words of a value that is being written. Refuted for a kill there: the next reader gets a value nobody inserted (witness; for all reachable states of one process after the other: C161_refuted)."
  },
  {
   "property": "C163",
   "status": "partial",
   "theorems": [
    "Verif.QueueThreads.C163_serial_partial",
    "Verif.QueueThreads.C163_messages_partial",
    "Verif.QueueThreads.C163_each_once_partial",
    "Verif.QueueThreads.C163_refuted_lost",
    "Verif.QueueThreads.C163_refuted_overflow",
    "Verif.QueueThreads.C163_refuted_flush",
    "Verif.QueueThreads.C163_refuted_twice"
   ],
   "note": "Proved for threads that hold a mutex of the program around every call: all calls behave as those of one thread. Refuted, for every size of messages and boxes, for threads that do not: messages are lost, written past the end of the box, or returned twice. The lock of the class protects the ring only."
  },
  {
   "property": "C164",
   "status": "partial",
   "theorems": [
    "Verif.MapThreads.C164_atomic_partial",
    "Verif.MapThreads.C164_exclusion",
    "Verif.MapThreads.C164_release",
    "Verif.MapThreads.C164_refuted_exit",
    "Verif.MapThreads.C164_refuted_read"
   ],
   "note": "Proved for all threads and processes, for all kills except at the places of C52: calls are atomic, writers are alone, the end of a process gives back its locks and no others. Refuted for threads that end alone inside of a section, for example by an exception of a value's assignment: nothing releases their lock until the process ends."
  },
  {
   "property": "C165",
   "status": "partial",
   "theorems": [
    "Verif.IpcRm.C165_exclusion_partial",
    "Verif.IpcRm.C165_same_set",
    "Verif.IpcRm.C165_throws",
    "Verif.IpcRm.C165_throws_only",
    "Verif.IpcRm.C165_old",
    "Verif.IpcRm.C165_refuted",
    "Verif.IpcRm.C165_refuted_effect"
   ],
   "note": "Proved for all runs in which nobody is inside of a section at a removal; for all runs: writers are alone among the processes with the same set, old handles throw at once and never get inside. Refuted, for every reachable state with a writer inside: the next process that connects is inside together with it; and the writer's call throws although it changed the map."
  },
  {
   "property": "C166",
   "status": "partial",
   "theorems": [
    "Verif.IpcRm.C166_exclusion_partial",
    "Verif.IpcRm.C166_boxes_partial",
    "Verif.IpcRm.C166_refuted",
    "Verif.IpcRm.C166_refuted_lag",
    "Verif.IpcRm.C166_refuted_dead",
    "Verif.IpcRm.C166_refuted_old"
   ],
   "note": "Proved for removals while nobody is connected (exclusion) and for queues whose boxes are all counted. Refuted: old handles go on without any lock; after a removal the boxes that are in the ring stay uncounted, so the last ones are never received; a full ring is dead forever."
  },
  {
   "property": "C167",
   "status": "partial",
   "theorems": [
    "Verif.PoolSys.C167_mutex_partial",
    "Verif.PoolSys.C167_refuted",
    "Verif.PoolSys.C167_refuted_ub",
    "Verif.PoolSys.C167_refuted_lost"
   ],
   "note": "Proved for processes that hold a mutex of the program around each call, for all interleavings. Refuted without one, from every state of a pool with a free object: two processes can get the same object; with one freed object left they can read outside of the pool; two frees can lose an object."
  },
  {
   "property": "C168",
   "status": "partial",
   "theorems": [
    "Verif.RandomSys.C168_seeded",
    "Verif.RandomSys.C168_once_partial",
    "Verif.RandomSys.C168_refuted"
   ],
   "note": "All schedules: numbers drawn after a successful call come from seeds of the device. Proved to be one stream if no call begins while another is going on until one has returned 0. Refuted otherwise, for all generators, device values and numbers of draws: a thread that tested the flag early seeds the generator again."
  },
  {
   "property": "C169",
   "status": "partial",
   "theorems": [
    "Verif.CacheMove.C169_moves_partial",
    "Verif.CacheMove.C139_value_partial",
    "Verif.CacheMove.C169_refuted",
    "Verif.CacheMove.C169_refuted_mixed"
   ],
   "note": "Proved for all programs, with any number of caches, that make no call on a cache that has been moved from (destruction, assignment, swap of it are allowed). Refuted, after every such program and for every cache with entries: `set` on it follows a pointer to a freed node, or links its node to the list of the other cache."
  },
  {
   "property": "C17",
   "status": "proved",
   "theorems": [
    "Verif.Url.C17_url_roundtrip",
    "Verif.Url.C17_url_noplus_roundtrip"
   ],
   "note": ""
  },
  {
   "property": "C170",
   "status": "partial",
   "theorems": [
    "Verif.CacheMove.C170_assign_partial",
    "Verif.CacheMove.C139_value_partial",
    "Verif.CacheMove.C170_refuted"
   ],
   "note": "Proved for all programs that only read the target (entries that are not outdated), whatever becomes of the source, and for assignments of empty caches. Refuted, for all caches with entries: after the end of the source, `set` of a new key on the target follows a pointer to a freed node."
  },
  {
   "property": "C171",
   "status": "partial",
   "theorems": [
    "Verif.UrlMem.C171_run_partial",
    "Verif.UrlMem.C171_fails_partial",
    "Verif.UrlMem.C171_refuted_abs",
    "Verif.UrlMem.C171_refuted_rel",
    "Verif.UrlMem.C171_refuted_subdomain",
    "Verif.UrlMem.C171_refuted_copy"
   ],
   "note": "Proved for all histories in which malloc fails only in calls that store no text, and for calls that fail for another reason. Refuted in general: every other creation, copy or assignment writes through NULL when malloc fails."
  },
  {
   "property": "C172",
   "status": "proved",
   "theorems": [
    "Verif.MapWeak.C172_same",
    "Verif.MapWeak.C172_views",
    "Verif.MapWeak.C172_atomic_partial"
   ],
   "note": "Proved for all executions, with kills anywhere: the same calls have the same results if every store is seen at once. C172_atomic_partial combines this with C117 (atomicity, for kills outside of its exceptions)."
  },
  {
   "property": "C173",
   "status": "partial",
   "theorems": [
    "Verif.QueueWeak.C173_same_partial",
    "Verif.QueueWeak.C173_views_partial",
    "Verif.QueueWeak.C173_fifo_partial",
    "Verif.QueueWeak.C173_refuted"
   ],
   "note": "Proved for all executions in which no semop of lock_queue is interrupted, with kills anywhere; with C54 for those without kills. Refuted for an interrupted lock_queue: it receives a box of zeros where it would have received a box that had been sent before."
  },
  {
   "property": "C174",
   "status": "partial",
   "theorems": [
    "Verif.SegRm.C174_generations_partial",
    "Verif.SegRm.C174_refuted"
   ],
   "note": "Proved: with removals at any points the replies are those of the history in which a key file goes by a new name after each removal, so with C111 the handles that connected between two removals share one map, which outlives the removal. Refuted after every history: a handle that connects after the removal has a map of its own, and no call tells."
  },
  {
   "property": "C175",
   "status": "partial",
   "theorems": [
    "Verif.QueueSegRm.C175_empty_partial",
    "Verif.QueueSegRm.C175_refuted_boxes",
    "Verif.QueueSegRm.C175_refuted_handles"
   ],
   "note": "Proved if segments are removed only when the queue has no boxes and the handles of a removed queue do not send, receive or count until they connect again. Refuted after every history otherwise: with boxes in the queue a new handle receives zeros that nobody sent; with an old handle in use its box is lost and zeros arrive in its place."
  },
  {
   "property": "C176",
   "status": "proved",
   "theorems": [
    "Verif.MapSys.C176_readers_together"
   ],
   "note": "For every reachable state of any number of processes, with kills anywhere. The 32767th reader gets an error from semop (its limit), which is excluded in the property."
  },
  {
   "property": "C177",
   "status": "partial",
   "theorems": [
    "Verif.UrlWide.C177_absolute_partial",
    "Verif.UrlWide.C177_relative_partial",
    "Verif.UrlWide.C177_refuted_all",
    "Verif.UrlWide.C177_refuted"
   ],
   "note": "Proved for sizes (with the parent) below 4 GiB, for all inputs. Above, for all texts without NUL: the URL is that of the part of the text whose length is the total modulo 2^32, and 0 is returned; the remainders 0 to 7 and 2^32 - 1 are left out there. For http://h/aaa… it is shown to be another URL than the right one."
  },
  {
   "property": "C178",
   "status": "partial",
   "theorems": [
    "Verif.UrlWide.C178_copy_partial",
    "Verif.UrlWide.C178_refuted_all",
    "Verif.UrlWide.C178_reached"
   ],
   "note": "Proved if text, domain and two ends take less than 4 GiB. Refuted for all others with lengths below 2^32: reading the text of the copy runs out of its block. Such URLs are created from hosts of 2 GiB."
  },
  {
   "property": "C179",
   "status": "partial",
   "theorems": [
    "Verif.MapThrow.C179_ended_partial",
    "Verif.MapThrow.C179_refuted",
    "Verif.MapThrow.C179_refuted_read",
    "Verif.MapThrow.C179_refuted_lost"
   ],
   "note": "Proved, for all histories, if a process whose value throws ends at once: the replies are those of a finite map in which such an insert leaves the state of the assignment under a bound key and loses an entry otherwise. Refuted after every history: the lock stays taken until the process ends (for reads: against all calls that change the map), and size counts the lost entry."
  },
  {
   "property": "C18",
   "status": "proved",
   "theorems": [
    "Verif.Url.C18_urlenc",
    "Verif.Url.C18_urlenc_noplus"
   ],
   "note": ""
  },
  {
   "property": "C180",
   "status": "partial",
   "theorems": [
    "Verif.FileMap.C180_memory_partial",
    "Verif.FileMap.C180_given_back",
    "Verif.FileMap.C180_read_only",
    "Verif.FileMap.C180_refuted",
    "Verif.FileMap.C180_refuted_lost"
   ],
   "note": "Proved for all files and all histories of calls and accesses in which no call of coda_mmap asks for a size smaller than that of the file (0 asks for all of it). Refuted otherwise, for every file, size and offset: such a call succeeds, and then accesses through older areas end in a signal or find the data gone."
  },
  {
   "property": "C181",
   "status": "proved",
   "theorems": [
    "Verif.MapIter.C181_growing"
   ],
   "note": "For all histories before and all interleavings during the loop; the premise (nobody erases or clears during the loop) is needed: C127_refuted, C127_refuted_twice, C127_refuted_ub. Memory is sequentially consistent, each member of a node is one access."
  },
  {
   "property": "C182",
   "status": "partial",
   "theorems": [
    "Verif.MapPeek.C182_peek_partial",
    "Verif.MapPeek.C182_bounds_partial",
    "Verif.MapPeek.C182_refuted",
    "Verif.MapPeek.C182_refuted_value"
   ],
   "note": "Proved while others only read and insert, for all histories before the call, all interleavings and kills during it; and that the call never leaves the segment, whatever the others do (in a segment that was new at the beginning of the history). Refuted by executions in which another process erases a different key (the key is not found) or erases the key and inserts another one (the value of the other key is delivered)."
  },
  {
   "property": "C183",
   "status": "partial",
   "theorems": [
    "Verif.LogHist.C183_counts_partial",
    "Verif.LogHist.C183_any_count_partial",
    "Verif.LogHist.C183_total_partial",
    "Verif.LogHist.C183_swap_partial",
    "Verif.LogHist.C183_refuted_zero",
    "Verif.LogHist.C183_refuted_more",
    "Verif.LogHist.C183_refuted_new"
   ],
   "note": "Proved for the ten types with a specialised constructor, all numbers of buckets and all sequences of values greater than 0 as long as the type can count them. Refuted in general: the value 0 is counted with the largest ones; one more than the range of the type, for every type; every other type begins with indeterminate cells. Proved for any number of values: what every cell shows (modulo a power of two for unsigned types), and exactly when the behaviour is undefined."
  },
  {
   "property": "C184",
   "status": "partial",
   "theorems": [
    "Verif.WeakPeek.C184_in_order_partial",
    "Verif.WeakPeek.C184_bounds_partial",
    "Verif.WeakPeek.C184_refuted",
    "Verif.WeakPeek.C184_refuted_loop"
   ],
   "note": "Proved for all orders of arrival: the call stays in the segment. Proved for stores that arrive in order (x86), with any delays, from a moment when none is on its way to the reader: all that C182 says. Refuted for other orders: a value that nobody inserted is delivered; the call goes round for any number of steps."
  },
  {
   "property": "C185",
   "status": "partial",
   "theorems": [
    "Verif.WeakIter.C185_locked_partial",
    "Verif.WeakIter.C185_in_order_partial",
    "Verif.WeakIter.C185_refuted",
    "Verif.WeakIter.C185_refuted_ub"
   ],
   "note": "Proved with the lock for all delays and orders of arrival (without kills at the places of C52). Proved without the lock for stores that arrive in order (x86), with any delays, from a moment when none is on its way to the reader: all that C181 says. Refuted for other orders: the loop sees a pair that nobody inserted; the loop reads outside of the segment."
  },
  {
   "property": "C186",
   "status": "partial",
   "theorems": [
    "Verif.MapFree.C186_writer_partial",
    "Verif.MapFree.C186_readers_partial",
    "Verif.MapFree.C186_bounds_partial",
    "Verif.MapFree.C186_waitfree_partial",
    "Verif.MapFree.C186_refuted",
    "Verif.MapFree.C186_refuted_value",
    "Verif.MapFree.C186_refuted_erase"
   ],
   "note": "Proved for one process that stores, in all interleavings: its results are those of the finite map; no call leaves the segment; reads by others while nothing is erased are exact and bounded; every call of the process that stores returns after at most 2 * capacity + buckets + 14 of its own steps. Refuted with two processes that insert without the lock: an entry is lost although both calls return true; a value of another key is read. Refuted for reads during an unlocked erase."
  },
  {
   "property": "C187",
   "status": "partial",
   "theorems": [
    "Verif.MapSweep.C187_ahead_partial",
    "Verif.MapSweep.C187_set_partial",
    "Verif.MapSweep.C187_here_partial",
    "Verif.MapSweep.C187_here_ok_partial",
    "Verif.MapSweep.C187_refuted",
    "Verif.MapSweep.C187_refuted_witness"
   ],
   "note": "Proved for all histories: a loop that advances the iterator before it erases, and a loop that replaces values, meet every entry once and do exactly what they should. For a loop that erases the entry its iterator points at: proved exactly what it sees and leaves, that it ends and stays in the segment, and that it is complete when no two entries to be erased share a bucket; refuted otherwise: one of any two such entries remains."
  },
  {
   "property": "C188",
   "status": "partial",
   "theorems": [
    "Verif.WeakFree.C188_writer_partial",
    "Verif.WeakFree.C188_bounds_partial",
    "Verif.WeakFree.C188_readers_partial",
    "Verif.WeakFree.C188_refuted",
    "Verif.WeakFree.C188_refuted_loop"
   ],
   "note": "Proved for all interleavings, delays and orders: the process that stores gets the results of the finite map; nobody leaves the segment. Proved for stores that arrive in order: reads by others while nothing is erased are exact and bounded. Refuted for other orders: a read delivers a value that nobody inserted, and a read goes round without end."
  },
  {
   "property": "C189",
   "status": "partial",
   "theorems": [
    "Verif.FreeWords.C189_writer_partial",
    "Verif.FreeWords.C189_bounds_partial",
    "Verif.FreeWords.C189_readers_partial",
    "Verif.FreeWords.C189_whole_partial",
    "Verif.FreeWords.C189_waitfree_partial",
    "Verif.FreeWords.C189_refuted"
   ],
   "note": "Proved for one process that stores, in all interleavings and all orders of copying the words: its results are those of the finite map with whole values, its calls return after a bounded number of its own steps; no call leaves the segment; reads by others while nothing is erased find every key, are bounded, and every word delivered is that word of a value inserted under the key; the value is whole if the key has only one value during the read. Refuted when the value is replaced during the read: a mix of the old and the new value is delivered."
  },
  {
   "property": "C19",
   "status": "proved",
   "theorems": [
    "Verif.Url.C19_urlenc_buf",
    "Verif.Url.C19_urldec_buf"
   ],
   "note": ""
  },
  {
   "property": "C190",
   "status": "partial",
   "theorems": [
    "Verif.ThrowMany.C190_ended_partial",
    "Verif.ThrowMany.C190_refuted",
    "Verif.ThrowMany.C190_refuted_part"
   ],
   "note": "Proved for processes that end after the exception: no call waits, and all replies are those of the finite map in which the pairs before the one that throws are bound, those after it are not, and the pair itself leaves under a bound key what the assignment left and otherwise loses an entry. Refuted after every history: if the process goes on every later call waits; a call that throws at its second pair is neither done nor undone, and loses an entry."
  },
  {
   "property": "C191",
   "status": "partial",
   "theorems": [
    "Verif.FreeIter.C191_growing_partial",
    "Verif.FreeIter.C191_still_partial",
    "Verif.FreeIter.C191_refuted",
    "Verif.FreeIter.C191_refuted_twice",
    "Verif.FreeIter.C191_refuted_ub"
   ],
   "note": "Proved for loops during which nothing is erased (erasures before the loop are allowed): the loop stays in the segment, ends after at most 5 * capacity + buckets + 3 steps, meets no key twice, meets every key that the completed calls left in the map, and only pairs of the map or inserted meanwhile; if nothing is stored meanwhile it meets exactly the entries of the finite map. Refuted with one erasure during the loop: an entry is missed, an entry is met twice, the loop reads outside of the segment."
  },
  {
   "property": "C192",
   "status": "partial",
   "theorems": [
    "Verif.LogTrunc.C192_append",
    "Verif.LogTrunc.C192_truncated",
    "Verif.LogTrunc.C192_rotated_partial",
    "Verif.LogTrunc.C192_inherited_partial",
    "Verif.LogTrunc.C192_refuted",
    "Verif.LogTrunc.C192_refuted_hole",
    "Verif.LogTrunc.C192_refuted_over"
   ],
   "note": "Proved for logs opened by log_create: all lines are appended whole and in order; after a truncation the file has exactly the lines logged since then; the copy has all lines logged before it. Proved for an inherited descriptor that is shared, without truncation. Refuted in every state: a line logged between copy and truncation is in neither; after a truncation an inherited descriptor without O_APPEND leaves a hole; two such descriptors write over each other."
  },
  {
   "property": "C193",
   "status": "partial",
   "theorems": [
    "Verif.InetHost.C193_listen_partial",
    "Verif.InetHost.C193_connect_partial",
    "Verif.InetHost.C193_agree_partial",
    "Verif.InetHost.C193_refuted_name",
    "Verif.InetHost.C193_refuted_port",
    "Verif.InetHost.C193_refuted_modulo",
    "Verif.InetHost.C193_refuted_octal"
   ],
   "note": "Proved for all addresses in the usual dotted decimal notation and all decimal ports below 65536: these are used, and coda_inet_addr agrees. Refuted for all names of hosts (the address 255.255.255.255 is used) and of services (port 0 is used); coda_inet_addr and the other two disagree on leading zeros, on fewer than four parts and on empty parts."
  },
  {
   "property": "C194",
   "status": "partial",
   "theorems": [
    "Verif.Dgram.C194_messages_partial",
    "Verif.Dgram.C194_sender_partial",
    "Verif.Dgram.C194_recv",
    "Verif.Dgram.C194_recv_any",
    "Verif.Dgram.C194_refuted_large",
    "Verif.Dgram.C194_refuted_cut",
    "Verif.Dgram.C194_refuted_send",
    "Verif.Dgram.C194_refuted_empty"
   ],
   "note": "Proved for calls of less than 2^31 bytes: one message for each receive, in order, none lost or given twice, whole if it fits into the buffer. Refuted for all messages longer than the buffer (cut, and the result is that of a shorter message) and for sends that a signal interrupts (not tried again, unlike receives); an empty message looks like the end of a connection."
  },
  {
   "property": "C195",
   "status": "partial",
   "theorems": [
    "Verif.Sleep.C195_slept",
    "Verif.Sleep.C195_failed",
    "Verif.Sleep.C195_quiet_partial",
    "Verif.Sleep.C195_insist_partial",
    "Verif.Sleep.C195_refuted",
    "Verif.Sleep.C195_refuted_insist",
    "Verif.Sleep.C195_refuted_negative"
   ],
   "note": "Proved: a call that returns 0 has slept for at least the time; it fails only for negative times or because of a signal; without signals it returns 0. Refuted for every signal that arrives in time (the call returns at once and what is left is not told), and for programs that call again: they never go on while signals come more often than the time, or if the time is negative."
  },
  {
   "property": "C196",
   "status": "partial",
   "theorems": [
    "Verif.XmlFloat.C196_nearest_partial",
    "Verif.XmlFloat.C196_exact",
    "Verif.XmlFloat.C196_formats",
    "Verif.XmlFloat.C196_ties",
    "Verif.XmlFloat.C196_blank",
    "Verif.XmlFloat.C196_whole",
    "Verif.XmlFloat.C196_order",
    "Verif.XmlFloat.C196_sign",
    "Verif.XmlFloat.C196_refuted_large",
    "Verif.XmlFloat.C196_refuted_rest",
    "Verif.XmlFloat.C196_refuted_none",
    "Verif.XmlFloat.C196_refuted_tenth"
   ],
   "note": "Proved for all decimal numbers (sign, fraction and exponent, after white space) up to the largest value of the type: the nearest value, exactly the number if the type has it, in the right order. Refuted for all numbers of 2^(p+emax) and more (infinity), for all texts that go on after a number (the rest is ignored, so 1,5 is 1) and for texts without a number (0). Infinities, NaN and hexadecimal numbers in texts are not modelled."
  },
  {
   "property": "C197",
   "status": "partial",
   "theorems": [
    "Verif.Capacity.C197_exact_partial",
    "Verif.Capacity.C197_refuted_string",
    "Verif.Capacity.C197_string_bounds",
    "Verif.Capacity.C197_refuted_bits",
    "Verif.Capacity.C197_refuted_vector",
    "Verif.Capacity.C197_refuted_unbounded"
   ],
   "note": "Exact for numbers, pointers and vectors whose elements have nothing on the heap. Refuted for every string (short ones are counted twice, the terminator of long ones is forgotten; bounds are proved), every vector of bool with room (eight times too much) and every vector with an element that has something on the heap (without bound)."
  },
  {
   "property": "C198",
   "status": "partial",
   "theorems": [
    "Verif.MkTree.C198_made_partial",
    "Verif.MkTree.C198_there",
    "Verif.MkTree.C198_any_partial",
    "Verif.MkTree.C198_refuted_file",
    "Verif.MkTree.C198_refuted_rest",
    "Verif.MkTree.C198_refuted_rest_all"
   ],
   "note": "Proved for all paths and trees in which no file stands in the place of a directory and the directories that are missing may be made: the call returns 0, all directories are there, everything else is kept, among any number of processes that make directories; a second call changes nothing. Refuted: a file in the place of the last directory is taken for it (for all such trees); a call that fails leaves what it has made (for all trees: C198_refuted_rest_all). For all trees and permissions: C198_any_partial."
  },
  {
   "property": "C199",
   "status": "partial",
   "theorems": [
    "Verif.PidRm.C199_exclusion_partial",
    "Verif.PidRm.C199_check",
    "Verif.PidRm.C199_starts",
    "Verif.PidRm.C199_refuted_all",
    "Verif.PidRm.C199_refuted_two",
    "Verif.PidRm.C199_refuted_empty",
    "Verif.PidRm.C199_refuted_empty_all"
   ],
   "note": "Proved for all histories in which only stale files are removed (no process that has written a pid file is running or starting, the file is not empty): one process at most, and the file has its number; a file that holds the number of a process that has ended is stale, if numbers are not used again and no write was cut short. Refuted: all removals of the file of a running process; two administrators who both look first; empty files that a killed process has left, whenever a starting process has them open."
  },
  {
   "property": "C20",
   "status": "proved",
   "theorems": [
    "Verif.Url.C20_urldec_in_place"
   ],
   "note": ""
  },
  {
   "property": "C21",
   "status": "proved",
   "theorems": [
    "Verif.Url.C21_urldec",
    "Verif.Url.C21_dec_unique",
    "Verif.Url.C21_urldec_plain"
   ],
   "note": ""
  },
  {
   "property": "C22",
   "status": "partial",
   "theorems": [
    "Verif.Url.C22_escape_unescape_partial",
    "Verif.Url.C22_escape_bounds_partial",
    "Verif.Url.C22_escape_text_partial",
    "Verif.Url.C22_exact_partial",
    "Verif.Url.C22_refuted_high",
    "Verif.Url.C22_refuted_high_all",
    "Verif.Url.C22_refuted_small"
   ],
   "note": "for ASCII texts the exact output is proved for every sz >= 4; exactly when the call stays inside its buffers and table, for all texts and sizes: false for every text with a byte >= 128 that is reached (negative table index), whatever the size, and below sz = 3 for texts that do not fit (the limit wraps around)"
  },
  {
   "property": "C23",
   "status": "partial",
   "theorems": [
    "Verif.Url.C23_unescape_bounds_partial",
    "Verif.Url.C23_exact_partial",
    "Verif.Url.C23_refuted"
   ],
   "note": "all strings and all sz >= 2; false below, where the limit sz - 2 wraps around: for sz = 1 for exactly the texts that unescape to something, for sz = 0 for all texts"
  },
  {
   "property": "C24",
   "status": "partial",
   "theorems": [
    "Verif.Url.C24_preunescape_bounds_partial",
    "Verif.Url.C24_exact_partial",
    "Verif.Url.C24_refuted",
    "Verif.Url.C24_refuted_all"
   ],
   "note": "all strings shorter than sz, and exactly those whose decoded text is, if there is no \\xXY of a byte below 0x80; false for all others of these: the limit is sz + 5"
  },
  {
   "property": "C25",
   "status": "proved",
   "theorems": [
    "Verif.Params.C25_params",
    "Verif.Params.C25_params_frame",
    "Verif.Params.C25_params_cstring",
    "Verif.Params.C25_params_null"
   ],
   "note": "std::map idealised to a partial function"
  },
  {
   "property": "C26",
   "status": "proved",
   "theorems": [
    "Verif.Params.C26_params_roundtrip"
   ],
   "note": ""
  },
  {
   "property": "C27",
   "status": "partial",
   "theorems": [
    "Verif.Params.C27_header_partial",
    "Verif.Params.C27_header_cstring",
    "Verif.Params.C27_header_stops",
    "Verif.Params.C27_null",
    "Verif.Params.C27_refuted",
    "Verif.Params.C27_exact_partial",
    "Verif.Params.C27_refuted_all"
   ],
   "note": "false when a line starts with NUL: exactly what is taken is proved for all data, and that all lines behind a leading NUL byte are lost; full statement proved for C strings"
  },
  {
   "property": "C28",
   "status": "proved",
   "theorems": [
    "Verif.Str.C28_strnchr",
    "Verif.Str.C28_strxchr",
    "Verif.Str.C28_revnchr",
    "Verif.Str.C28_revxchr",
    "Verif.Str.C28_strnchp",
    "Verif.Str.C28_strxchp"
   ],
   "note": ""
  },
  {
   "property": "C29",
   "status": "partial",
   "theorems": [
    "Verif.Str.C29_strnstr_partial",
    "Verif.Str.C29_strxstr_partial",
    "Verif.Str.C29_stristr",
    "Verif.Str.C29_empty_needle",
    "Verif.Str.C29_null",
    "Verif.Str.C29_refuted",
    "Verif.Str.C29_refuted_all"
   ],
   "note": "all haystacks that do not begin with NUL, all needles; false for all ranges that begin with NUL"
  },
  {
   "property": "C30",
   "status": "partial",
   "theorems": [
    "Verif.Str.C30_strstr_bounds_partial",
    "Verif.Str.C30_refuted",
    "Verif.Str.C30_refuted_all"
   ],
   "note": "all lengths but 0; with length 0 the first byte is still read, for all needles"
  },
  {
   "property": "C31",
   "status": "proved",
   "theorems": [
    "Verif.Str.C31_strnspn",
    "Verif.Str.C31_strxspn",
    "Verif.Str.C31_strispn",
    "Verif.Str.C31_strnspc",
    "Verif.Str.C31_strxspc",
    "Verif.Str.C31_strispc"
   ],
   "note": ""
  },
  {
   "property": "C32",
   "status": "partial",
   "theorems": [
    "Verif.Str.C32_revnspc",
    "Verif.Str.C32_revxspc",
    "Verif.Str.C32_revnspn_partial",
    "Verif.Str.C32_revxspn_partial",
    "Verif.Str.C32_revnspn_refuted",
    "Verif.Str.C32_refuted_all"
   ],
   "note": "revnspc/revxspc proved; revnspn/revxspn return one more than the length of the suffix for every text with a character outside of the alphabet (exact value proved for all texts)"
  },
  {
   "property": "C33",
   "status": "proved",
   "theorems": [
    "Verif.Str.C33_atou_digits",
    "Verif.Str.C33_atou_malformed",
    "Verif.Str.C33_atoi",
    "Verif.Str.C33_atou_roundtrip",
    "Verif.Str.C33_atoi_roundtrip"
   ],
   "note": ""
  },
  {
   "property": "C34",
   "status": "partial",
   "theorems": [
    "Verif.StrCpp.C34_split_string",
    "Verif.StrCpp.C34_split_unique",
    "Verif.StrCpp.C34_no_delimiter",
    "Verif.StrCpp.C34_split_string_sized_partial",
    "Verif.StrCpp.C34_split_string_sized_nul",
    "Verif.StrCpp.C34_sized_refuted",
    "Verif.StrCpp.C34_sized_refuted_all"
   ],
   "note": "NUL terminated version proved in full; the sized version treats NUL bytes as delimiters, so that it is wrong for all data with a NUL byte; proved for NUL-free data and, with NUL as extra delimiter, for all data"
  },
  {
   "property": "C35",
   "status": "proved",
   "theorems": [
    "Verif.StrCpp.C35_split_lossless",
    "Verif.StrCpp.C35_split_sized_lossless"
   ],
   "note": ""
  },
  {
   "property": "C36",
   "status": "partial",
   "theorems": [
    "Verif.StrCpp.C36_stringset",
    "Verif.StrCpp.C36_stringset_null",
    "Verif.StrCpp.C36_uint64set_partial",
    "Verif.StrCpp.C36_number_unique",
    "Verif.StrCpp.C36_uint64set_null",
    "Verif.StrCpp.C36_uint64set_refuted",
    "Verif.StrCpp.C36_uint64set_refuted_all"
   ],
   "note": "stringset proved; uint64set inserts an indeterminate value exactly for the texts with a piece without number"
  },
  {
   "property": "C37",
   "status": "partial",
   "theorems": [
    "Verif.StrCpp.C37_strnappend_partial",
    "Verif.StrCpp.C37_strnprintf_partial",
    "Verif.StrCpp.C37_strnprintf_pos",
    "Verif.StrCpp.C37_strappend",
    "Verif.StrCpp.C37_strprintf",
    "Verif.StrCpp.C37_refuted",
    "Verif.StrCpp.C37_refuted_big"
   ],
   "note": "false for num >= 2^31 (conversion to int: every call throws, or only the lower 32 bits count); proved for num < 2^31"
  },
  {
   "property": "C38",
   "status": "proved",
   "theorems": [
    "Verif.StrCpp.C38_random_string"
   ],
   "note": "non-empty alphabet; any generator"
  },
  {
   "property": "C39",
   "status": "proved",
   "theorems": [
    "Verif.StrCpp.C39_words",
    "Verif.StrCpp.C39_get_next_word"
   ],
   "note": ""
  },
  {
   "property": "C40",
   "status": "proved",
   "theorems": [
    "Verif.Cache.C40_contents",
    "Verif.Cache.C40_get_last_set",
    "Verif.Cache.C40_get_finds",
    "Verif.Cache.C40_getInto_agrees",
    "Verif.Cache.C40_missing_reason"
   ],
   "note": "the value part without hypotheses; the absence part for histories that do not overflow size_t"
  },
  {
   "property": "C41",
   "status": "partial",
   "theorems": [
    "Verif.Cache.C41_size_limit_partial",
    "Verif.Cache.C41_insert_fits_partial",
    "Verif.Cache.C41_refuted",
    "Verif.Cache.C41_refuted_all"
   ],
   "note": "false: a set of a present key never evicts, after all histories; proved for histories that never enlarge a present value, and after every insertion"
  },
  {
   "property": "C42",
   "status": "proved",
   "theorems": [
    "Verif.Cache.C42_evicts_oldest",
    "Verif.Cache.C42_set_moves_to_end"
   ],
   "note": ""
  },
  {
   "property": "C43",
   "status": "proved",
   "theorems": [
    "Verif.Cache.C43_expiry",
    "Verif.Cache.C42_set_moves_to_end",
    "Verif.Cache.C43_overflow_refuted"
   ],
   "note": "for clocks and limits that do not overflow, as quantified; the overflow witness is given too"
  },
  {
   "property": "C44",
   "status": "proved",
   "theorems": [
    "Verif.Cache.C44_structure_intact",
    "Verif.Cache.C44_queries_safe"
   ],
   "note": "hash table idealised to a map; no hypotheses"
  },
  {
   "property": "C45",
   "status": "proved",
   "theorems": [
    "Verif.ShmPool.C45_bounded_lifo",
    "Verif.ShmPool.C45_pop_empty_ub"
   ],
   "note": "pop of an empty stack is undefined behaviour"
  },
  {
   "property": "C46",
   "status": "proved",
   "theorems": [
    "Verif.ShmPool.C46_allocate",
    "Verif.ShmPool.C46_allocated_distinct"
   ],
   "note": ""
  },
  {
   "property": "C47",
   "status": "proved",
   "theorems": [
    "Verif.ShmMap.C47_finite_map",
    "Verif.ShmMap.C47_spec_last"
   ],
   "note": "sequential histories; concurrency is C51"
  },
  {
   "property": "C48",
   "status": "proved",
   "theorems": [
    "Verif.ShmMap.C48_capacity",
    "Verif.ShmMap.C47_finite_map"
   ],
   "note": ""
  },
  {
   "property": "C49",
   "status": "proved",
   "theorems": [
    "Verif.ShmMap.C49_iteration"
   ],
   "note": ""
  },
  {
   "property": "C50",
   "status": "proved",
   "theorems": [
    "Verif.ShmMap.C50_insert_batch",
    "Verif.ShmMap.C50_erase_batch"
   ],
   "note": ""
  },
  {
   "property": "C51",
   "status": "proved",
   "theorems": [
    "Verif.RwLock.C51_exclusion",
    "Verif.RwLock.C51_atomic",
    "Verif.RwLock.C51_released"
   ],
   "note": "arbitrary bodies of the critical sections; starts with existing semaphores (see C81)"
  },
  {
   "property": "C52",
   "status": "partial",
   "theorems": [
    "Verif.ShmMap.C52_killed_partial",
    "Verif.ShmMap.C52_refuted_erase",
    "Verif.ShmMap.C52_refuted_erase_loop",
    "Verif.ShmMap.C52_refuted_clear"
   ],
   "note": "false at one kill point of erase (between the two writes of stack::push) and inside clear, refuted by witnesses; proved for all other kill points"
  },
  {
   "property": "C53",
   "status": "proved",
   "theorems": [
    "Verif.ShmMap.C53_map_attach",
    "Verif.ShmPool.C53_pool_attach",
    "Verif.ShmPool.C53_stack_attach"
   ],
   "note": ""
  },
  {
   "property": "C54",
   "status": "partial",
   "theorems": [
    "Verif.ShmQueue.C54_fifo",
    "Verif.ShmQueue.C54_writer_order",
    "Verif.ShmQueue.C54_no_loss",
    "Verif.ShmQueue.C54_no_deadlock",
    "Verif.ShmQueue.C54_next",
    "Verif.ShmQueue.C54_refuted_large"
   ],
   "note": "proved for every number of processes and every schedule without kills and interrupted locks, for rings of at most 32768 boxes as far as 'no box is lost' is concerned; refuted for larger rings (count semaphore overflows, error ignored). Kills and interruptions are C83 and C82."
  },
  {
   "property": "C55",
   "status": "proved",
   "theorems": [
    "Verif.ShmQueue.C55_ring",
    "Verif.ShmQueue.C55_accept"
   ],
   "note": "all ring sizes with size*box_size < 2^32, all schedules without kills and interrupted locks (C82, C83)"
  },
  {
   "property": "C56",
   "status": "partial",
   "theorems": [
    "Verif.ShmQueue.C56_put_partial",
    "Verif.ShmQueue.C56_refuted",
    "Verif.ShmQueue.C56_refuted_ring",
    "Verif.ShmQueue.C56_put_too_large"
   ],
   "note": "false as stated: a flush into a full ring drops the box and put still returns true; proved when every flush finds room"
  },
  {
   "property": "C57",
   "status": "proved",
   "theorems": [
    "Verif.ShmQueue.C57_framing"
   ],
   "note": "fixed-size messages whose serialize succeeds"
  },
  {
   "property": "C58",
   "status": "proved",
   "theorems": [
    "Verif.Synque.C58_fifo",
    "Verif.Synque.C58_each_thread",
    "Verif.Synque.C58_size"
   ],
   "note": "all numbers of threads, all schedules, spurious wake-ups; no exceptions (C85)"
  },
  {
   "property": "C59",
   "status": "proved",
   "theorems": [
    "Verif.Synque.C59_no_lost_wakeup",
    "Verif.Synque.C59_progress",
    "Verif.Synque.C59_owner_releases"
   ],
   "note": ""
  },
  {
   "property": "C60",
   "status": "proved",
   "theorems": [
    "Verif.Synque.C60_results",
    "Verif.Synque.C60_no_wait"
   ],
   "note": ""
  },
  {
   "property": "C61",
   "status": "proved",
   "theorems": [
    "Verif.Gmtime.C61_gregorian_date",
    "Verif.Gmtime.C61_unique",
    "Verif.Gmtime.C61_range",
    "Verif.Gmtime.C61_negative"
   ],
   "note": "the two last are witnesses that the range is needed"
  },
  {
   "property": "C62",
   "status": "proved",
   "theorems": [
    "Verif.Gmtime.C62_time_of_day",
    "Verif.Gmtime.C62_weekday"
   ],
   "note": ""
  },
  {
   "property": "C63",
   "status": "partial",
   "theorems": [
    "Verif.Gmtime.C63_offset_partial",
    "Verif.Gmtime.C63_refuted"
   ],
   "note": "false: tm_year is the full year and tm_mon is 1-based; the exact offset is proved"
  },
  {
   "property": "C64",
   "status": "proved",
   "theorems": [
    "Verif.LogArray.C64_bucket",
    "Verif.LogArray.C64_zero",
    "Verif.LogArray.C64_in_bounds",
    "Verif.LogArray.C64_store",
    "Verif.LogArray.C64_swap"
   ],
   "note": ""
  },
  {
   "property": "C65",
   "status": "partial",
   "theorems": [
    "Verif.Inet.C65_text",
    "Verif.Inet.C65_all_texts",
    "Verif.Inet.C65_reject_partial",
    "Verif.Inet.C65_refuted",
    "Verif.Inet.C65_refuted_all",
    "Verif.Inet.C65_empty"
   ],
   "note": "false for components of 2^64 and more that wrap around below 256 (all such texts); the exact behaviour is proved for all texts; empty components are accepted as 0"
  },
  {
   "property": "C66",
   "status": "partial",
   "theorems": [
    "Verif.Logger.C66_names_partial",
    "Verif.Logger.C66_no_overread",
    "Verif.Logger.C66_others",
    "Verif.Logger.C66_starts",
    "Verif.Logger.C66_filter",
    "Verif.Logger.C66_failed",
    "Verif.Logger.C66_refuted",
    "Verif.Logger.C66_refuted_all"
   ],
   "note": "'anything else is info' is false (for every text that starts with the distinguishing letters); exact set of accepted beginnings proved"
  },
  {
   "property": "C67",
   "status": "partial",
   "theorems": [
    "Verif.Mkpath.C67_mkpath_partial",
    "Verif.Mkpath.C67_result",
    "Verif.Mkpath.C67_exist",
    "Verif.Mkpath.C67_terminates",
    "Verif.Mkpath.C67_refuted",
    "Verif.Mkpath.C67_empty_garbage",
    "Verif.Mkpath.C67_file_in_place"
   ],
   "note": "proved for every non-empty path; the empty path is undefined behaviour (C67_refuted)"
  },
  {
   "property": "C68",
   "status": "proved",
   "theorems": [
    "Verif.Pidfile.C68_exclusion",
    "Verif.Pidfile.C68_content",
    "Verif.Pidfile.C68_no_lock_left",
    "Verif.Pidfile.C68_succeeds",
    "Verif.Pidfile.C68_refuses",
    "Verif.Pidfile.C68_text",
    "Verif.Pidfile.C68_stop_after_failure",
    "Verif.Pidfile.C68_stale_file"
   ],
   "note": "the two last show that the condition is needed and that a killed process blocks the path"
  },
  {
   "property": "C69",
   "status": "partial",
   "theorems": [
    "Verif.Fd.C69_fdmove",
    "Verif.Fd.C69_fdmove_stay",
    "Verif.Fd.C69_fdmove_closed",
    "Verif.Fd.C69_fdopen_partial",
    "Verif.Fd.C69_refuted"
   ],
   "note": "coda_fdopen leaks its descriptor if dup2 fails"
  },
  {
   "property": "C70",
   "status": "proved",
   "theorems": [
    "Verif.Fd.C70_listen",
    "Verif.Fd.C70_accept",
    "Verif.Fd.C70_connect",
    "Verif.Fd.C70_mmap"
   ],
   "note": ""
  },
  {
   "property": "C71",
   "status": "proved",
   "theorems": [
    "Verif.Vietnam.C71_bounds",
    "Verif.Vietnam.C71_local",
    "Verif.Vietnam.C71_ascii",
    "Verif.Vietnam.C71_prefix"
   ],
   "note": ""
  },
  {
   "property": "C72",
   "status": "proved",
   "theorems": [
    "Verif.Vietnam.C72_characters",
    "Verif.Vietnam.C72_truncated",
    "Verif.Vietnam.C72_result_plain",
    "Verif.Vietnam.C72_concat"
   ],
   "note": "U+0000 is included"
  },
  {
   "property": "C73",
   "status": "partial",
   "theorems": [
    "Verif.Vietnam.C73_utf8_partial",
    "Verif.Vietnam.C73_idempotent_partial",
    "Verif.Vietnam.C73_refuted",
    "Verif.Vietnam.C73_refuted_all"
   ],
   "note": "false for all byte strings in which an overlong NUL stands between a text and bytes with tones"
  },
  {
   "property": "C74",
   "status": "partial",
   "theorems": [
    "Verif.StrStore.C74_map_partial",
    "Verif.StrStore.C74_stable_partial",
    "Verif.StrStore.C74_disjoint_partial",
    "Verif.StrStore.C74_refuted"
   ],
   "note": "false in general (witness); proved for all histories over strings without shifted common parts of nine bytes, shorter than 256 bytes"
  },
  {
   "property": "C75",
   "status": "partial",
   "theorems": [
    "Verif.StrStore.C75_partial",
    "Verif.StrStore.C75_refuted"
   ],
   "note": "all histories and lengths except strlen + 1 + user data = 4096, which writes past the block"
  },
  {
   "property": "C76",
   "status": "partial",
   "theorems": [
    "Verif.StrStore.C76_partial",
    "Verif.StrStore.C76_refuted"
   ],
   "note": "false in general (witness); proved for the strings of C74"
  },
  {
   "property": "C77",
   "status": "partial",
   "theorems": [
    "Verif.UrlParser.C77_format_partial",
    "Verif.UrlParser.C77_labels",
    "Verif.UrlParser.C77_refuted"
   ],
   "note": "all texts without NUL in an object of at least eight bytes; false for hosts with empty labels (three labels) and texts with NUL (witnesses)"
  },
  {
   "property": "C78",
   "status": "partial",
   "theorems": [
    "Verif.UrlParser.C78_abs_partial",
    "Verif.UrlParser.C78_rel_partial",
    "Verif.UrlParser.C78_nothing",
    "Verif.UrlParser.C78_refuted"
   ],
   "note": "false as stated: eight resp. eleven bytes are read whatever sz is, and an sz inside a given scheme overruns (witnesses); proved for all other arguments and all parents"
  },
  {
   "property": "C79",
   "status": "partial",
   "theorems": [
    "Verif.UrlParser.C79_abs",
    "Verif.UrlParser.C79_rel_partial",
    "Verif.UrlParser.C79_refuted",
    "Verif.UrlParser.C97_refuted_all"
   ],
   "note": "create_absolute: all texts without NUL; create_relative: all parents except those with an upper-case S in https, for which it is false (witness; C97_refuted_all: all such parents with all arguments that begin with a slash lose the host)"
  },
  {
   "property": "C80",
   "status": "partial",
   "theorems": [
    "Verif.UrlParser.C80_partial",
    "Verif.UrlParser.C80_no_leak",
    "Verif.UrlParser.C80_text",
    "Verif.UrlParser.C80_created",
    "Verif.UrlParser.C80_refuted",
    "Verif.UrlParser.C80_refuted_all"
   ],
   "note": "all histories without self-assignment of a non-empty object, which is a use after free (witness, and after every history)"
  },
  {
   "property": "C81",
   "status": "partial",
   "theorems": [
    "Verif.RwLock.C81_connect_partial",
    "Verif.RwLock.C81_refuted",
    "Verif.RwLock.C81_refuted_single"
   ],
   "note": "false for concurrent first connects (witnesses); proved when the first connect is complete before the others start"
  },
  {
   "property": "C82",
   "status": "partial",
   "theorems": [
    "Verif.ShmQueue.C82_exclusion_partial",
    "Verif.ShmQueue.C82_refuted"
   ],
   "note": "false as stated (EINTR of semop ignored); proved without interrupted semops"
  },
  {
   "property": "C83",
   "status": "partial",
   "theorems": [
    "Verif.ShmQueue.C83_killed_partial",
    "Verif.ShmQueue.C83_lock_released",
    "Verif.ShmQueue.C83_refuted_flush",
    "Verif.ShmQueue.C83_refuted_unflush"
   ],
   "note": "false at three kill points (witnesses); proved for kills everywhere else"
  },
  {
   "property": "C84",
   "status": "partial",
   "theorems": [
    "Verif.Synque.C84_blocking_get_partial",
    "Verif.Synque.C84_taken_partial",
    "Verif.Synque.C84_refuted",
    "Verif.Synque.C84_refuted_all"
   ],
   "note": "proved for one consumer without signal() and spurious wake-ups; for any number of consumers, with both: a get woken by an add returns -1 only if another get has taken elements since. False otherwise, from every state in which a get waits (stolen wake-up)."
  },
  {
   "property": "C85",
   "status": "partial",
   "theorems": [
    "Verif.Synque.C85_refuted",
    "Verif.Synque.C85_witness",
    "Verif.Synque.C85_released_partial"
   ],
   "note": "false: after an exception no call ever completes again (proved for all continuations)"
  },
  {
   "property": "C86",
   "status": "proved",
   "theorems": [
    "Verif.Gmtime.C86_msleep",
    "Verif.Gmtime.C86_msleep_negative"
   ],
   "note": ""
  },
  {
   "property": "C87",
   "status": "partial",
   "theorems": [
    "Verif.Mkpath.C87_readonly_partial",
    "Verif.Mkpath.C87_refuted"
   ],
   "note": "false for every path with a directory in it (the function writes into its const argument)"
  },
  {
   "property": "C88",
   "status": "partial",
   "theorems": [
    "Verif.Fd.C88_random_partial",
    "Verif.Fd.C88_refuted",
    "Verif.Fd.C88_short",
    "Verif.Fd.C88_short_all"
   ],
   "note": "false if read fails or is short"
  },
  {
   "property": "C89",
   "status": "partial",
   "theorems": [
    "Verif.Fd.C89_daemon_partial",
    "Verif.Fd.C89_parent",
    "Verif.Fd.C89_refuted",
    "Verif.Fd.C89_values",
    "Verif.Fd.C89_refuted_all"
   ],
   "note": "false whenever one of the calls of dup2 fails"
  },
  {
   "property": "C90",
   "status": "partial",
   "theorems": [
    "Verif.Fd.C90_mmap_partial",
    "Verif.Fd.C90_mmap_file",
    "Verif.Fd.C90_failure",
    "Verif.Fd.C90_readonly_size",
    "Verif.Fd.C90_empty_file",
    "Verif.Fd.C90_refuted",
    "Verif.Fd.C90_values"
   ],
   "note": "the success part is proved in full; a failing close returns -1 with the mapping in place"
  },
  {
   "property": "C91",
   "status": "partial",
   "theorems": [
    "Verif.Fd.C91_port_partial",
    "Verif.Fd.C91_connect_partial",
    "Verif.Fd.C91_refuted",
    "Verif.Fd.C91_refuted_all",
    "Verif.Fd.C91_connect_refuted_all"
   ],
   "note": "all ports of 65536 and more are cut to 16 bits"
  },
  {
   "property": "C92",
   "status": "proved",
   "theorems": [
    "Verif.Daemon.C92_last_wins",
    "Verif.Daemon.C92_unknown"
   ],
   "note": ""
  },
  {
   "property": "C93",
   "status": "proved",
   "theorems": [
    "Verif.Daemon.C93_flags",
    "Verif.Daemon.C93_mask"
   ],
   "note": ""
  },
  {
   "property": "C94",
   "status": "partial",
   "theorems": [
    "Verif.Daemon.C94_recv_partial",
    "Verif.Daemon.C94_interrupted",
    "Verif.Daemon.C94_refuted",
    "Verif.Daemon.C94_refuted_all"
   ],
   "note": "false for 2 GiB and more at once"
  },
  {
   "property": "C95",
   "status": "partial",
   "theorems": [
    "Verif.Daemon.C95_timeout_partial",
    "Verif.Daemon.C95_refuted"
   ],
   "note": "false from one second on"
  },
  {
   "property": "C96",
   "status": "partial",
   "theorems": [
    "Verif.Daemon.C96_estimate_partial",
    "Verif.Daemon.C96_lower_bound",
    "Verif.Daemon.C96_refuted",
    "Verif.Daemon.C96_refuted_all"
   ],
   "note": "false for exactly the vectors with elements that own memory; it is a lower bound for all values, if the memory of a string is taken to be its capacity; C197 has the strings of the C++ library as they are in memory"
  },
  {
   "property": "C97",
   "status": "partial",
   "theorems": [
    "Verif.UrlParser.C97_relative_partial",
    "Verif.UrlParser.C97_parts",
    "Verif.UrlParser.C97_refuted",
    "Verif.UrlParser.C97_upper_exact",
    "Verif.UrlParser.C97_refuted_all"
   ],
   "note": "false for parents with an upper-case S in https: exactly what they give is proved; full statement proved for all others"
  },
  {
   "property": "C98",
   "status": "proved",
   "theorems": [
    "Verif.UrlParser.C98_subdomain",
    "Verif.UrlParser.C98_accepts"
   ],
   "note": "arguments in objects of at least eleven bytes (C78)"
  },
  {
   "property": "C99",
   "status": "proved",
   "theorems": [
    "Verif.Txml.C99_load_document",
    "Verif.Txml.C99_other_member",
    "Verif.Txml.C99_load_again",
    "Verif.Txml.C99_text_pieces",
    "Verif.Txml.C99_text_only",
    "Verif.Txml.C99_refuted_mixed_text",
    "Verif.Txml.C99_refuted_mixed_all"
   ],
   "note": "all documents with non-empty names, all objects whose keys differ; the text of an element is what follows its last child (earlier text is dropped, for all such elements: C99_refuted_mixed_all)"
  }
 ]
}