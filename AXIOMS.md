# Axioms of the theorems in MANIFEST.json

Printed by Lean's `#print axioms`. x: the theorem depends on the axiom.

| theorem | propext | Classical.choice | Quot.sound |
|---|---|---|---|
| Base64.C01_base64_roundtrip | x | x | x |
| Base64.C02_base64_encode_rfc4648 | x | x | x |
| Base64.C03_base64_encode_buffer | x | x | x |
| Base64.C04_base64_encode_alloc | x | x | x |
| Base64.C05_base64_decode_language | x | x | x |
| Base64.C05_language_length | x |  | x |
| Base64.C05_language_functional | x |  | x |
| Base64.C06_base64_decode_buffer | x | x | x |
| Base64.C07_base64_decode_alloc | x | x | x |
| Base64.C08_base64_injective | x |  | x |
| Base64.C08_base64_encode_injective | x | x | x |
| Base64.C08_base64_reencode | x | x | x |
| Base64.C09_web64_roundtrip | x | x | x |
| Base64.C09_web64_url_safe | x | x | x |
| Base64.C10_web64_encode_buffer | x | x | x |
| Base64.C10_web64_decode_language | x | x | x |
| Base64.C10_web64_decode_buffer | x | x | x |
| Txml.C100_any_prefix_defined_partial | x | x | x |
| Txml.C100_resume | x | x | x |
| Txml.C100_refuted_list_in_list | x | x | x |
| Txml.C100_refuted_same_key | x | x | x |
| Txml.C100_refuted_all | x |  |  |
| Txml.C101_load_from_file | x | x | x |
| Txml.C101_cannot_open |  |  |  |
| Txml.C101_succeeds | x | x | x |
| Txml.C102_switch | x | x | x |
| Txml.C102_white_space | x | x | x |
| Txml.C103_number_partial | x | x | x |
| Txml.C103_no_number | x | x | x |
| Txml.C103_out_of_range | x | x | x |
| Txml.C103_refuted_wraps | x | x | x |
| Txml.C103_refuted_all | x | x | x |
| Txml.C104_whole_string_partial | x |  | x |
| Txml.C104_refuted_long_string | x |  | x |
| Txml.C104_refuted_negative_length | x |  | x |
| QueueApi.C105_fifo_and_registers | x | x | x |
| QueueApi.C105_refuted_no_boxes | x |  |  |
| QueueApi.C105_refuted_no_boxes_all | x |  | x |
| QueueApi.C105_refuted_overflow | x |  | x |
| QueueApi.C106_failed_connect_partial | x | x | x |
| QueueApi.C106_refuted_lock_kept | x | x | x |
| QueueApi.C106_refuted_handle_dead | x |  | x |
| QueueApi.C106_refuted_mismatch | x | x | x |
| QueueApi.C107_unconnected_partial | x | x | x |
| QueueApi.C107_refuted_register | x | x | x |
| Url.C108_unescape_text_partial | x | x | x |
| Url.C108_applies | x | x | x |
| Url.C108_exact_partial | x | x | x |
| Url.C108_does_total | x | x | x |
| Url.C108_does_of_unesc | x |  | x |
| Url.C108_refuted | x |  |  |
| Url.C108_refuted_all | x | x | x |
| Url.C108_refuted_digits | x | x | x |
| Url.C109_preunescape_text_partial | x | x | x |
| Url.C109_applies | x |  | x |
| Url.C109_refuted | x |  |  |
| Url.C109_refuted_all | x | x | x |
| Url.C109_refuted_exact | x | x | x |
| Base58.C11_base58_encode_text | x | x | x |
| Base58.C11_text_unique | x | x | x |
| MapApi.C110_layout_partial | x |  | x |
| MapApi.C110_refuted | x |  | x |
| MapApi.C111_shared_finite_maps | x | x | x |
| MapApi.C112_failed_connect_partial | x | x | x |
| MapApi.C112_refuted_connected | x | x | x |
| MapApi.C112_refuted_dead | x | x | x |
| MapApi.C112_refuted_null | x | x | x |
| MapApi.C113_mapped_while_connected_partial | x | x | x |
| MapApi.C113_refuted_never_unmapped | x |  |  |
| MapApi.C113_refuted | x | x | x |
| MapApi.C114_unconnected_partial | x | x | x |
| MapApi.C114_refuted | x | x | x |
| MapApi.C115_killed_in_attach_partial | x | x | x |
| MapApi.C115_refuted_stuck | x |  | x |
| MapApi.C115_refuted_spins | x |  | x |
| MapApi.C115_refuted_phantom | x |  | x |
| MapApi.C115_refuted_lost | x | x | x |
| RwLock.C116_signals_partial | x | x | x |
| RwLock.C116_refuted | x | x | x |
| RwLock.C116_refuted_unlock | x | x | x |
| RwLock.C116_refuted_forever | x |  | x |
| MapSys.C117_atomic_partial | x | x | x |
| MapSys.C117_no_ub_partial | x | x | x |
| MapSys.C117_spec_sequential | x |  | x |
| MapSys.C117_spec_killed | x |  | x |
| MapSys.C117_refuted | x |  | x |
| MapSys.C118_ends_partial | x | x | x |
| MapSys.C118_no_deadlock_partial | x | x | x |
| MapSys.C118_refuted | x | x | x |
| MapSys.C119_granted_partial | x | x | x |
| MapSys.C119_refuted | x | x | x |
| Base58.C12_base58_decode_encode | x | x | x |
| LogText.C120_entries_partial | x |  | x |
| LogText.C120_one_line_partial | x |  | x |
| LogText.C120_refuted | x |  | x |
| LogText.C120_refuted_err | x |  | x |
| LogText.C120_refuted_name | x |  | x |
| LogText.C120_refuted_name_all | x |  | x |
| LogText.C121_sorted | x | x | x |
| LogText.C121_refuted_year | x |  | x |
| LogText.C121_refuted_all | x | x | x |
| LogText.C122_what_partial | x |  | x |
| LogText.C122_errno_partial | x |  | x |
| LogText.C122_refuted | x |  | x |
| SigLog.C123_handled_partial | x | x | x |
| SigLog.C123_refuted | x | x | x |
| Load.C124_loaded_partial | x |  | x |
| Load.C124_results_partial | x |  | x |
| Load.C124_comes_up_partial | x |  | x |
| Load.C124_refuted | x |  | x |
| Load.C125_die_partial | x |  |  |
| Load.C125_refuted | x |  |  |
| MapSys.C126_snapshot_partial | x | x | x |
| MapSys.C126_undisturbed_partial | x | x | x |
| MapIter.C127_iteration_partial | x | x | x |
| MapIter.C127_no_ub_partial | x | x | x |
| MapIter.C127_ends_partial | x | x | x |
| MapIter.C127_refuted | x |  | x |
| MapIter.C127_refuted_twice | x |  |  |
| MapIter.C127_refuted_ub | x |  |  |
| VarBox.C128_messages_partial | x |  | x |
| VarBox.C128_same_object_partial | x |  | x |
| VarBox.C128_refuted_lost | x |  | x |
| VarBox.C128_refuted_ub | x |  | x |
| VarBox.C128_refuted_default | x |  | x |
| QueueMake.C129_connect_partial | x | x | x |
| QueueMake.C129_progress_partial | x | x | x |
| QueueMake.C129_refuted_lock | x |  | x |
| QueueMake.C129_refuted_count | x |  | x |
| QueueMake.C129_refuted_memory | x |  | x |
| Base58.C13_base58_encode_decode | x | x | x |
| Base58.C13_text_injective | x | x | x |
| QueueMake.C130_kills_partial | x | x | x |
| QueueMake.C130_refuted_stuck | x |  | x |
| QueueMake.C130_refuted_crash | x |  | x |
| StrHeap.C131_partial | x | x | x |
| StrHeap.C131_refuted_again | x | x | x |
| StrHeap.C132_noalloc_partial | x |  | x |
| StrHeap.C132_find_partial | x | x | x |
| StrHeap.C132_first_partial | x |  | x |
| StrHeap.C132_refuted_realloc | x |  | x |
| StrHeap.C132_refuted_all | x | x | x |
| StrHeap.C132_refuted_null | x |  | x |
| StrHeap.C132_refuted_leak | x | x | x |
| StrHeap.C132_refuted_lost | x |  | x |
| CacheThrow.C133_new_partial | x | x | x |
| CacheThrow.C133_insert_partial | x | x | x |
| CacheThrow.C133_old_partial | x | x | x |
| CacheThrow.C133_refuted_value | x | x | x |
| CacheThrow.C133_refuted_crash | x | x | x |
| SigProc.C134_alive_partial | x |  | x |
| SigProc.C134_noticed_partial | x |  | x |
| SigProc.C134_rest_partial | x |  | x |
| SigProc.C134_mask | x |  | x |
| SigProc.C134_mask_result | x |  | x |
| SigProc.C134_only | x |  | x |
| SigProc.C134_cleared | x |  | x |
| SigProc.C134_nested | x | x | x |
| SigProc.C134_nested_norestart | x | x | x |
| SigProc.C134_blocked | x |  | x |
| SigProc.C134_refuted_reset | x |  | x |
| SigProc.C135_interrupts_partial | x |  | x |
| SigProc.C135_one_more | x | x | x |
| SigProc.C135_refuted_restart | x |  | x |
| SigProc.C135_refuted_race | x |  | x |
| QueueOpt.C136_partial | x | x | x |
| QueueOpt.C136_refuted_negative | x | x | x |
| QueueOpt.C136_refuted_undo | x | x | x |
| CacheRef.C137_pointer | x | x | x |
| CacheRef.C138_dbg | x | x | x |
| CacheRef.C139_read_partial | x | x | x |
| CacheRef.C139_empty_partial | x | x | x |
| CacheRef.C139_refuted_dangling | x | x | x |
| CacheRef.C139_refuted_shared |  |  |  |
| CacheMove.C139_value_partial | x | x | x |
| Base58.C14_base58_decode_reject_partial | x | x | x |
| Base58.C14_base58_decode_accept | x | x | x |
| Base58.C14_refuted | x |  |  |
| Base58.C14_refuted_all | x | x | x |
| CacheRef.C140_alias | x | x | x |
| LogFile.C141_once_partial | x |  | x |
| LogFile.C141_lines_partial | x |  | x |
| LogFile.C141_refuted_torn | x |  |  |
| LogFile.C141_refuted_mixed | x |  |  |
| LogFile.C142_switch_partial | x | x | x |
| LogFile.C142_failed_partial | x | x | x |
| LogFile.C142_refuted_two | x |  |  |
| LogFile.C142_refuted_close | x |  | x |
| GetOpt.C143_accepts | x | x | x |
| GetOpt.C143_rejects | x | x | x |
| GetOpt.C143_complete | x | x | x |
| GetOpt.C143_returns | x | x | x |
| GetOpt.C143_posix | x |  | x |
| GetOpt.C143_posix_dashes | x | x | x |
| GetOpt.C143_posix_rejects | x | x | x |
| GetOpt.C144_again_partial | x | x | x |
| GetOpt.C144_refuted | x | x | x |
| GetOpt.C144_retry_refuted | x |  |  |
| GetOpt.C144_dashes_refuted | x |  |  |
| QueueMsg.C145_ways | x | x | x |
| QueueMsg.C145_all | x | x | x |
| QueueMsg.C145_put | x | x | x |
| QueueMsg.C145_full_refuted | x |  | x |
| QueueMsg.C146_refuted | x |  | x |
| QueueMsg.C146_zeros_refuted | x |  |  |
| QueueKill.C146_phases_partial | x | x | x |
| QueueKill.C146_refuted_back | x |  | x |
| QueueKill.C146_refuted_dirty | x |  | x |
| Keys.C147_keys | x | x | x |
| Keys.C147_queues_partial | x | x | x |
| Keys.C147_maps_partial | x | x | x |
| Keys.C147_refuted | x | x | x |
| Keys.C147_refuted_message | x |  |  |
| Keys.C147_refuted_many | x | x | x |
| Keys.C148_refuted_map | x | x | x |
| Keys.C148_refuted_queue | x | x | x |
| MapCopy.C149_copies | x | x | x |
| Base58.C15_base58_encode_buffer | x | x | x |
| Base58.C15_base58_encode_alloc | x | x | x |
| Base58.C15_base58_decode_alloc | x | x | x |
| Base58.C15_base58_decode_alloc_valid | x | x | x |
| QueueFork.C150_same_partial | x |  | x |
| QueueFork.C150_ways_partial | x | x | x |
| QueueFork.C150_refuted | x |  | x |
| QueueFork.C150_refuted_reader | x |  | x |
| QueueCopy.C151_partial | x |  | x |
| QueueCopy.C151_refuted_destroy | x |  | x |
| QueueCopy.C151_refuted_use | x |  | x |
| QueueCopy.C151_refuted_mix | x |  | x |
| QueueCopy.C151_refuted_leak | x |  | x |
| QueueKill.C152_ways_partial | x | x | x |
| QueueKill.C152_refuted | x |  | x |
| QueueKill.C152_refuted_start | x |  | x |
| SerFail.C153_partial | x |  | x |
| SerFail.C153_answer_partial | x |  | x |
| SerFail.C153_bounds | x |  | x |
| SerFail.C153_refuted | x |  | x |
| SerFail.C153_refuted_twice | x |  | x |
| SerFail.C153_refuted_room | x |  |  |
| QueueRegs.C154_atomic | x |  | x |
| QueueRegs.C154_no_deadlock | x | x | x |
| QueueRegs.C154_ends | x |  |  |
| QueueRegs.C154_no_counter | x |  |  |
| QueueVar.C155_ways | x | x | x |
| QueueVar.C155_ways_partial | x | x | x |
| QueueVar.C155_all | x | x | x |
| QueueVar.C155_bounds | x | x | x |
| QueueVar.C155_put | x | x | x |
| QueueVar.C155_refuted_lost | x |  | x |
| QueueVar.C155_refuted_bounds | x |  | x |
| Base58Mem.C156_decode | x | x | x |
| Base58Mem.C156_decode_alloc_partial | x | x | x |
| Base58Mem.C156_encode_partial | x | x | x |
| Base58Mem.C156_encode_alloc_partial | x | x | x |
| Base58Mem.C156_refuted_number | x | x | x |
| Base58Mem.C156_refuted_pointer | x | x | x |
| Base58Mem.C156_refuted_encode | x | x | x |
| Base58Mem.C156_refuted_leak | x | x | x |
| MapNest.C157_exclusive | x | x | x |
| MapNest.C157_grant | x | x | x |
| MapNest.C157_read_partial | x | x | x |
| MapNest.C157_kill_partial | x | x | x |
| MapNest.C157_refuted | x | x | x |
| MapNest.C157_refuted_others | x | x | x |
| MapNest.C158_fork_partial | x | x | x |
| MapNest.C158_refuted_read | x |  |  |
| MapNest.C158_refuted_write | x |  |  |
| MapNest.C158_refuted_release | x |  |  |
| MapNest.C158_refuted_orphan | x | x | x |
| SynqueCancel.C159_nowait_partial | x | x | x |
| SynqueCancel.C159_outside_partial | x | x | x |
| SynqueCancel.C159_refuted | x | x | x |
| SynqueCancel.C159_witness | x |  |  |
| Base58.C16_base58_encode_alloc_ret_partial | x | x | x |
| Base58.C16_refuted | x |  |  |
| Base58.C16_refuted_all | x | x | x |
| Stream.C160_stream_partial | x |  | x |
| Stream.C160_recv | x |  | x |
| Stream.C160_pipe | x |  |  |
| Stream.C160_refuted_send | x | x | x |
| Stream.C160_refuted_large | x | x | x |
| Stream.C160_refuted_told | x |  | x |
| Stream.C160_refuted_recv | x | x | x |
| MapTorn.C161_mixed_partial | x | x | x |
| MapTorn.C161_word_partial | x | x | x |
| MapTorn.C161_new_partial | x | x | x |
| MapTorn.C161_exact | x | x | x |
| MapTorn.C161_refuted | x | x | x |
| MapWords.C162_atomic_partial | x | x | x |
| MapWords.C162_no_ub_partial | x | x | x |
| MapWords.C162_refuted | x |  | x |
| QueueThreads.C163_serial_partial | x | x | x |
| QueueThreads.C163_messages_partial | x | x | x |
| QueueThreads.C163_each_once_partial | x | x | x |
| QueueThreads.C163_refuted_lost | x |  | x |
| QueueThreads.C163_refuted_overflow | x |  | x |
| QueueThreads.C163_refuted_flush | x |  | x |
| QueueThreads.C163_refuted_twice | x |  | x |
| MapThreads.C164_atomic_partial | x | x | x |
| MapThreads.C164_exclusion | x | x | x |
| MapThreads.C164_release | x | x | x |
| MapThreads.C164_refuted_exit | x | x | x |
| MapThreads.C164_refuted_read | x | x | x |
| IpcRm.C165_exclusion_partial | x | x | x |
| IpcRm.C165_same_set | x | x | x |
| IpcRm.C165_throws | x |  |  |
| IpcRm.C165_throws_only | x |  | x |
| IpcRm.C165_old | x |  | x |
| IpcRm.C165_refuted | x |  | x |
| IpcRm.C165_refuted_effect | x |  |  |
| IpcRm.C166_exclusion_partial | x | x | x |
| IpcRm.C166_boxes_partial | x |  | x |
| IpcRm.C166_refuted | x |  |  |
| IpcRm.C166_refuted_lag | x |  | x |
| IpcRm.C166_refuted_dead | x |  | x |
| IpcRm.C166_refuted_old | x |  | x |
| PoolSys.C167_mutex_partial | x | x | x |
| PoolSys.C167_refuted | x | x | x |
| PoolSys.C167_refuted_ub | x | x | x |
| PoolSys.C167_refuted_lost | x | x | x |
| RandomSys.C168_seeded | x | x | x |
| RandomSys.C168_once_partial | x | x | x |
| RandomSys.C168_refuted | x |  | x |
| CacheMove.C169_moves_partial | x | x | x |
| CacheMove.C169_refuted | x | x | x |
| CacheMove.C169_refuted_mixed | x |  |  |
| Url.C17_url_roundtrip | x |  | x |
| Url.C17_url_noplus_roundtrip | x |  | x |
| CacheMove.C170_assign_partial | x | x | x |
| CacheMove.C170_refuted | x | x | x |
| UrlMem.C171_run_partial | x | x | x |
| UrlMem.C171_fails_partial | x |  | x |
| UrlMem.C171_refuted_abs | x |  | x |
| UrlMem.C171_refuted_rel | x | x | x |
| UrlMem.C171_refuted_subdomain | x |  | x |
| UrlMem.C171_refuted_copy | x | x | x |
| MapWeak.C172_same | x | x | x |
| MapWeak.C172_views | x | x | x |
| MapWeak.C172_atomic_partial | x | x | x |
| QueueWeak.C173_same_partial | x | x | x |
| QueueWeak.C173_views_partial | x | x | x |
| QueueWeak.C173_fifo_partial | x | x | x |
| QueueWeak.C173_refuted | x |  | x |
| SegRm.C174_generations_partial | x | x | x |
| SegRm.C174_refuted | x | x | x |
| QueueSegRm.C175_empty_partial | x | x | x |
| QueueSegRm.C175_refuted_boxes | x | x | x |
| QueueSegRm.C175_refuted_handles | x | x | x |
| MapSys.C176_readers_together | x | x | x |
| UrlWide.C177_absolute_partial | x |  | x |
| UrlWide.C177_relative_partial | x |  | x |
| UrlWide.C177_refuted_all | x | x | x |
| UrlWide.C177_refuted | x | x | x |
| UrlWide.C178_copy_partial | x | x | x |
| UrlWide.C178_refuted_all | x | x | x |
| UrlWide.C178_reached | x | x | x |
| MapThrow.C179_ended_partial | x | x | x |
| MapThrow.C179_refuted | x | x | x |
| MapThrow.C179_refuted_read | x | x | x |
| MapThrow.C179_refuted_lost | x | x | x |
| Url.C18_urlenc | x |  | x |
| Url.C18_urlenc_noplus | x |  | x |
| FileMap.C180_memory_partial | x | x | x |
| FileMap.C180_given_back | x | x | x |
| FileMap.C180_read_only | x |  |  |
| FileMap.C180_refuted | x |  | x |
| FileMap.C180_refuted_lost | x | x | x |
| MapIter.C181_growing | x | x | x |
| MapPeek.C182_peek_partial | x | x | x |
| MapPeek.C182_bounds_partial | x |  | x |
| MapPeek.C182_refuted | x |  |  |
| MapPeek.C182_refuted_value | x |  |  |
| LogHist.C183_counts_partial | x | x | x |
| LogHist.C183_any_count_partial | x | x | x |
| LogHist.C183_total_partial | x | x | x |
| LogHist.C183_swap_partial | x | x | x |
| LogHist.C183_refuted_zero | x | x | x |
| LogHist.C183_refuted_more | x | x | x |
| LogHist.C183_refuted_new | x |  | x |
| WeakPeek.C184_in_order_partial | x | x | x |
| WeakPeek.C184_bounds_partial | x |  | x |
| WeakPeek.C184_refuted | x |  |  |
| WeakPeek.C184_refuted_loop | x |  | x |
| WeakIter.C185_locked_partial | x | x | x |
| WeakIter.C185_in_order_partial | x | x | x |
| WeakIter.C185_refuted | x |  |  |
| WeakIter.C185_refuted_ub | x |  |  |
| MapFree.C186_writer_partial | x | x | x |
| MapFree.C186_readers_partial | x | x | x |
| MapFree.C186_bounds_partial | x | x | x |
| MapFree.C186_waitfree_partial | x | x | x |
| MapFree.C186_refuted | x |  |  |
| MapFree.C186_refuted_value | x |  |  |
| MapFree.C186_refuted_erase | x |  |  |
| MapSweep.C187_ahead_partial | x | x | x |
| MapSweep.C187_set_partial | x | x | x |
| MapSweep.C187_here_partial | x | x | x |
| MapSweep.C187_here_ok_partial | x | x | x |
| MapSweep.C187_refuted | x | x | x |
| MapSweep.C187_refuted_witness |  |  |  |
| WeakFree.C188_writer_partial | x | x | x |
| WeakFree.C188_bounds_partial | x | x | x |
| WeakFree.C188_readers_partial | x | x | x |
| WeakFree.C188_refuted | x |  |  |
| WeakFree.C188_refuted_loop | x |  | x |
| FreeWords.C189_writer_partial | x | x | x |
| FreeWords.C189_bounds_partial | x | x | x |
| FreeWords.C189_readers_partial | x | x | x |
| FreeWords.C189_whole_partial | x | x | x |
| FreeWords.C189_waitfree_partial | x | x | x |
| FreeWords.C189_refuted | x |  |  |
| Url.C19_urlenc_buf | x | x | x |
| Url.C19_urldec_buf | x | x | x |
| ThrowMany.C190_ended_partial | x | x | x |
| ThrowMany.C190_refuted | x | x | x |
| ThrowMany.C190_refuted_part | x | x | x |
| FreeIter.C191_growing_partial | x | x | x |
| FreeIter.C191_still_partial | x | x | x |
| FreeIter.C191_refuted | x |  |  |
| FreeIter.C191_refuted_twice | x |  |  |
| FreeIter.C191_refuted_ub | x |  |  |
| LogTrunc.C192_append | x |  | x |
| LogTrunc.C192_truncated | x |  | x |
| LogTrunc.C192_rotated_partial | x |  | x |
| LogTrunc.C192_inherited_partial | x |  | x |
| LogTrunc.C192_refuted | x |  | x |
| LogTrunc.C192_refuted_hole | x |  |  |
| LogTrunc.C192_refuted_over | x |  | x |
| InetHost.C193_listen_partial | x |  | x |
| InetHost.C193_connect_partial | x |  | x |
| InetHost.C193_agree_partial | x |  | x |
| InetHost.C193_refuted_name | x |  | x |
| InetHost.C193_refuted_port | x |  | x |
| InetHost.C193_refuted_modulo | x |  | x |
| InetHost.C193_refuted_octal | x |  |  |
| Dgram.C194_messages_partial | x |  | x |
| Dgram.C194_sender_partial | x |  | x |
| Dgram.C194_recv | x |  | x |
| Dgram.C194_recv_any | x |  | x |
| Dgram.C194_refuted_large | x |  | x |
| Dgram.C194_refuted_cut | x |  | x |
| Dgram.C194_refuted_send | x |  |  |
| Dgram.C194_refuted_empty | x |  |  |
| Sleep.C195_slept | x | x | x |
| Sleep.C195_failed | x | x | x |
| Sleep.C195_quiet_partial | x | x | x |
| Sleep.C195_insist_partial | x | x | x |
| Sleep.C195_refuted | x | x | x |
| Sleep.C195_refuted_insist | x | x | x |
| Sleep.C195_refuted_negative | x | x | x |
| XmlFloat.C196_nearest_partial | x | x | x |
| XmlFloat.C196_exact | x | x | x |
| XmlFloat.C196_formats |  |  |  |
| XmlFloat.C196_ties | x | x | x |
| XmlFloat.C196_blank | x | x | x |
| XmlFloat.C196_whole | x | x | x |
| XmlFloat.C196_order | x | x | x |
| XmlFloat.C196_sign | x | x | x |
| XmlFloat.C196_refuted_large | x | x | x |
| XmlFloat.C196_refuted_rest | x | x | x |
| XmlFloat.C196_refuted_none | x | x | x |
| XmlFloat.C196_refuted_tenth | x | x | x |
| Capacity.C197_exact_partial | x |  | x |
| Capacity.C197_refuted_string | x |  | x |
| Capacity.C197_string_bounds | x |  | x |
| Capacity.C197_refuted_bits | x |  | x |
| Capacity.C197_refuted_vector | x | x | x |
| Capacity.C197_refuted_unbounded | x |  | x |
| MkTree.C198_made_partial | x | x | x |
| MkTree.C198_there | x |  | x |
| MkTree.C198_any_partial | x | x | x |
| MkTree.C198_refuted_file | x |  | x |
| MkTree.C198_refuted_rest | x |  | x |
| MkTree.C198_refuted_rest_all | x | x | x |
| PidRm.C199_exclusion_partial | x |  | x |
| PidRm.C199_check | x | x | x |
| PidRm.C199_starts | x |  | x |
| PidRm.C199_refuted_all | x |  | x |
| PidRm.C199_refuted_two | x |  | x |
| PidRm.C199_refuted_empty | x |  | x |
| PidRm.C199_refuted_empty_all | x |  | x |
| Url.C20_urldec_in_place | x | x | x |
| Url.C21_urldec | x |  | x |
| Url.C21_dec_unique | x |  | x |
| Url.C21_urldec_plain | x |  | x |
| Url.C22_escape_unescape_partial | x | x | x |
| Url.C22_escape_bounds_partial | x | x | x |
| Url.C22_escape_text_partial | x | x | x |
| Url.C22_exact_partial | x | x | x |
| Url.C22_refuted_high | x |  | x |
| Url.C22_refuted_high_all | x | x | x |
| Url.C22_refuted_small | x |  | x |
| Url.C23_unescape_bounds_partial | x | x | x |
| Url.C23_exact_partial | x | x | x |
| Url.C23_refuted | x |  |  |
| Url.C24_preunescape_bounds_partial | x | x | x |
| Url.C24_exact_partial | x | x | x |
| Url.C24_refuted | x |  |  |
| Url.C24_refuted_all | x | x | x |
| Params.C25_params | x |  | x |
| Params.C25_params_frame | x |  | x |
| Params.C25_params_cstring | x |  | x |
| Params.C25_params_null |  |  |  |
| Params.C26_params_roundtrip | x |  | x |
| Params.C27_header_partial | x | x | x |
| Params.C27_header_cstring | x | x | x |
| Params.C27_header_stops | x | x | x |
| Params.C27_null | x |  |  |
| Params.C27_refuted | x |  |  |
| Params.C27_exact_partial | x | x | x |
| Params.C27_refuted_all | x | x | x |
| Str.C28_strnchr | x |  | x |
| Str.C28_strxchr | x |  | x |
| Str.C28_revnchr | x |  | x |
| Str.C28_revxchr | x |  | x |
| Str.C28_strnchp | x |  | x |
| Str.C28_strxchp | x |  | x |
| Str.C29_strnstr_partial | x | x | x |
| Str.C29_strxstr_partial | x | x | x |
| Str.C29_stristr | x | x | x |
| Str.C29_empty_needle | x |  | x |
| Str.C29_null | x |  | x |
| Str.C29_refuted | x |  |  |
| Str.C29_refuted_all | x |  |  |
| Str.C30_strstr_bounds_partial | x | x | x |
| Str.C30_refuted | x |  |  |
| Str.C30_refuted_all | x |  |  |
| Str.C31_strnspn | x |  | x |
| Str.C31_strxspn | x |  | x |
| Str.C31_strispn | x |  | x |
| Str.C31_strnspc | x | x | x |
| Str.C31_strxspc | x | x | x |
| Str.C31_strispc | x | x | x |
| Str.C32_revnspc | x | x | x |
| Str.C32_revxspc | x | x | x |
| Str.C32_revnspn_partial | x |  | x |
| Str.C32_revxspn_partial | x |  | x |
| Str.C32_revnspn_refuted | x |  |  |
| Str.C32_refuted_all | x |  | x |
| Str.C33_atou_digits | x |  | x |
| Str.C33_atou_malformed | x | x | x |
| Str.C33_atoi | x | x | x |
| Str.C33_atou_roundtrip | x | x | x |
| Str.C33_atoi_roundtrip | x | x | x |
| StrCpp.C34_split_string | x |  | x |
| StrCpp.C34_split_unique | x | x | x |
| StrCpp.C34_no_delimiter | x |  | x |
| StrCpp.C34_split_string_sized_partial | x | x | x |
| StrCpp.C34_split_string_sized_nul | x |  | x |
| StrCpp.C34_sized_refuted | x |  | x |
| StrCpp.C34_sized_refuted_all | x |  | x |
| StrCpp.C35_split_lossless | x |  | x |
| StrCpp.C35_split_sized_lossless | x |  | x |
| StrCpp.C36_stringset | x |  | x |
| StrCpp.C36_stringset_null | x |  |  |
| StrCpp.C36_uint64set_partial | x | x | x |
| StrCpp.C36_number_unique | x |  | x |
| StrCpp.C36_uint64set_null | x |  |  |
| StrCpp.C36_uint64set_refuted | x |  |  |
| StrCpp.C36_uint64set_refuted_all | x | x | x |
| StrCpp.C37_strnappend_partial | x | x | x |
| StrCpp.C37_strnprintf_partial | x | x | x |
| StrCpp.C37_strnprintf_pos | x |  |  |
| StrCpp.C37_strappend | x | x | x |
| StrCpp.C37_strprintf | x | x | x |
| StrCpp.C37_refuted | x | x | x |
| StrCpp.C37_refuted_big | x | x | x |
| StrCpp.C38_random_string | x |  | x |
| StrCpp.C39_words | x |  | x |
| StrCpp.C39_get_next_word | x |  | x |
| Cache.C40_contents | x | x | x |
| Cache.C40_get_last_set | x | x | x |
| Cache.C40_get_finds | x | x | x |
| Cache.C40_getInto_agrees |  |  |  |
| Cache.C40_missing_reason | x | x | x |
| Cache.C41_size_limit_partial | x | x | x |
| Cache.C41_insert_fits_partial | x | x | x |
| Cache.C41_refuted | x | x | x |
| Cache.C41_refuted_all | x | x | x |
| Cache.C42_evicts_oldest | x | x | x |
| Cache.C42_set_moves_to_end | x | x | x |
| Cache.C43_expiry | x | x | x |
| Cache.C43_overflow_refuted |  |  |  |
| Cache.C44_structure_intact | x | x | x |
| Cache.C44_queries_safe | x | x | x |
| ShmPool.C45_bounded_lifo | x |  | x |
| ShmPool.C45_pop_empty_ub | x |  | x |
| ShmPool.C46_allocate | x | x | x |
| ShmPool.C46_allocated_distinct | x | x | x |
| ShmMap.C47_finite_map | x | x | x |
| ShmMap.C47_spec_last | x |  | x |
| ShmMap.C48_capacity | x | x | x |
| ShmMap.C49_iteration | x | x | x |
| ShmMap.C50_insert_batch | x | x | x |
| ShmMap.C50_erase_batch | x | x | x |
| RwLock.C51_exclusion | x | x | x |
| RwLock.C51_atomic | x | x | x |
| RwLock.C51_released | x | x | x |
| ShmMap.C52_killed_partial | x | x | x |
| ShmMap.C52_refuted_erase |  |  |  |
| ShmMap.C52_refuted_erase_loop |  |  |  |
| ShmMap.C52_refuted_clear |  |  |  |
| ShmMap.C53_map_attach | x | x | x |
| ShmPool.C53_pool_attach | x | x | x |
| ShmPool.C53_stack_attach | x | x | x |
| ShmQueue.C54_fifo | x | x | x |
| ShmQueue.C54_writer_order | x |  |  |
| ShmQueue.C54_no_loss | x | x | x |
| ShmQueue.C54_no_deadlock | x | x | x |
| ShmQueue.C54_next | x | x | x |
| ShmQueue.C54_refuted_large | x | x | x |
| ShmQueue.C55_ring | x | x | x |
| ShmQueue.C55_accept | x | x | x |
| ShmQueue.C56_put_partial | x |  | x |
| ShmQueue.C56_refuted | x |  | x |
| ShmQueue.C56_refuted_ring | x |  |  |
| ShmQueue.C56_put_too_large | x |  |  |
| ShmQueue.C57_framing | x |  | x |
| Synque.C58_fifo | x | x | x |
| Synque.C58_each_thread | x | x | x |
| Synque.C58_size | x | x | x |
| Synque.C59_no_lost_wakeup | x | x | x |
| Synque.C59_progress | x | x | x |
| Synque.C59_owner_releases | x | x | x |
| Synque.C60_results | x | x | x |
| Synque.C60_no_wait | x |  | x |
| Gmtime.C61_gregorian_date | x | x | x |
| Gmtime.C61_unique | x |  | x |
| Gmtime.C61_range |  |  |  |
| Gmtime.C61_negative |  |  |  |
| Gmtime.C62_time_of_day | x | x | x |
| Gmtime.C62_weekday | x |  | x |
| Gmtime.C63_offset_partial | x | x | x |
| Gmtime.C63_refuted |  |  |  |
| LogArray.C64_bucket | x | x | x |
| LogArray.C64_zero | x |  | x |
| LogArray.C64_in_bounds | x |  | x |
| LogArray.C64_store | x |  | x |
| LogArray.C64_swap | x |  | x |
| Inet.C65_text | x |  | x |
| Inet.C65_all_texts | x | x | x |
| Inet.C65_reject_partial | x | x | x |
| Inet.C65_refuted | x |  |  |
| Inet.C65_refuted_all | x |  | x |
| Inet.C65_empty | x |  |  |
| Logger.C66_names_partial | x |  | x |
| Logger.C66_no_overread | x |  | x |
| Logger.C66_others | x |  | x |
| Logger.C66_starts | x |  | x |
| Logger.C66_filter | x |  | x |
| Logger.C66_failed | x |  | x |
| Logger.C66_refuted | x |  |  |
| Logger.C66_refuted_all | x |  | x |
| Mkpath.C67_mkpath_partial | x |  | x |
| Mkpath.C67_result | x |  | x |
| Mkpath.C67_exist | x |  | x |
| Mkpath.C67_terminates | x |  | x |
| Mkpath.C67_refuted | x |  |  |
| Mkpath.C67_empty_garbage | x |  |  |
| Mkpath.C67_file_in_place | x |  |  |
| Pidfile.C68_exclusion | x |  | x |
| Pidfile.C68_content | x |  | x |
| Pidfile.C68_no_lock_left | x |  | x |
| Pidfile.C68_succeeds | x |  | x |
| Pidfile.C68_refuses | x |  | x |
| Pidfile.C68_text | x | x | x |
| Pidfile.C68_stop_after_failure | x |  | x |
| Pidfile.C68_stale_file | x |  | x |
| Fd.C69_fdmove | x |  | x |
| Fd.C69_fdmove_stay |  |  |  |
| Fd.C69_fdmove_closed | x |  | x |
| Fd.C69_fdopen_partial | x |  | x |
| Fd.C69_refuted | x |  | x |
| Fd.C70_listen | x |  | x |
| Fd.C70_accept | x |  | x |
| Fd.C70_connect | x |  | x |
| Fd.C70_mmap | x |  | x |
| Vietnam.C71_bounds | x | x | x |
| Vietnam.C71_local | x | x | x |
| Vietnam.C71_ascii | x | x | x |
| Vietnam.C71_prefix | x | x | x |
| Vietnam.C72_characters | x | x | x |
| Vietnam.C72_truncated | x | x | x |
| Vietnam.C72_result_plain | x | x | x |
| Vietnam.C72_concat | x | x | x |
| Vietnam.C73_utf8_partial | x | x | x |
| Vietnam.C73_idempotent_partial | x | x | x |
| Vietnam.C73_refuted | x |  | x |
| Vietnam.C73_refuted_all | x | x | x |
| StrStore.C74_map_partial | x | x | x |
| StrStore.C74_stable_partial | x | x | x |
| StrStore.C74_disjoint_partial | x | x | x |
| StrStore.C74_refuted | x | x | x |
| StrStore.C75_partial | x | x | x |
| StrStore.C75_refuted | x |  | x |
| StrStore.C76_partial | x | x | x |
| StrStore.C76_refuted | x | x | x |
| UrlParser.C77_format_partial | x | x | x |
| UrlParser.C77_labels |  |  |  |
| UrlParser.C77_refuted | x | x | x |
| UrlParser.C78_abs_partial | x | x | x |
| UrlParser.C78_rel_partial | x | x | x |
| UrlParser.C78_nothing | x | x | x |
| UrlParser.C78_refuted | x | x | x |
| UrlParser.C79_abs | x | x | x |
| UrlParser.C79_rel_partial | x | x | x |
| UrlParser.C79_refuted | x | x | x |
| UrlParser.C97_refuted_all | x | x | x |
| UrlParser.C80_partial | x |  | x |
| UrlParser.C80_no_leak | x |  | x |
| UrlParser.C80_text | x |  | x |
| UrlParser.C80_created | x | x | x |
| UrlParser.C80_refuted | x | x | x |
| UrlParser.C80_refuted_all | x |  | x |
| RwLock.C81_connect_partial | x |  | x |
| RwLock.C81_refuted | x |  |  |
| RwLock.C81_refuted_single | x |  |  |
| ShmQueue.C82_exclusion_partial | x | x | x |
| ShmQueue.C82_refuted | x |  |  |
| ShmQueue.C83_killed_partial | x | x | x |
| ShmQueue.C83_lock_released | x | x | x |
| ShmQueue.C83_refuted_flush | x |  |  |
| ShmQueue.C83_refuted_unflush | x |  |  |
| Synque.C84_blocking_get_partial | x | x | x |
| Synque.C84_taken_partial | x | x | x |
| Synque.C84_refuted | x |  |  |
| Synque.C84_refuted_all | x |  | x |
| Synque.C85_refuted | x | x | x |
| Synque.C85_witness | x |  |  |
| Synque.C85_released_partial | x | x | x |
| Gmtime.C86_msleep | x | x | x |
| Gmtime.C86_msleep_negative | x | x | x |
| Mkpath.C87_readonly_partial | x |  | x |
| Mkpath.C87_refuted | x |  | x |
| Fd.C88_random_partial | x |  | x |
| Fd.C88_refuted |  |  |  |
| Fd.C88_short |  |  |  |
| Fd.C88_short_all | x |  | x |
| Fd.C89_daemon_partial | x |  | x |
| Fd.C89_parent | x |  |  |
| Fd.C89_refuted |  |  |  |
| Fd.C89_values |  |  | x |
| Fd.C89_refuted_all | x |  | x |
| Fd.C90_mmap_partial | x | x | x |
| Fd.C90_mmap_file | x |  | x |
| Fd.C90_failure | x |  | x |
| Fd.C90_readonly_size | x |  |  |
| Fd.C90_empty_file | x |  | x |
| Fd.C90_refuted | x |  | x |
| Fd.C90_values |  |  |  |
| Fd.C91_port_partial | x |  | x |
| Fd.C91_connect_partial | x |  | x |
| Fd.C91_refuted | x |  |  |
| Fd.C91_refuted_all | x |  | x |
| Fd.C91_connect_refuted_all | x |  | x |
| Daemon.C92_last_wins | x |  |  |
| Daemon.C92_unknown | x |  |  |
| Daemon.C93_flags | x |  | x |
| Daemon.C93_mask | x |  | x |
| Daemon.C94_recv_partial | x |  | x |
| Daemon.C94_interrupted | x |  |  |
| Daemon.C94_refuted |  |  |  |
| Daemon.C94_refuted_all | x |  | x |
| Daemon.C95_timeout_partial | x |  |  |
| Daemon.C95_refuted | x |  | x |
| Daemon.C96_estimate_partial | x |  | x |
| Daemon.C96_lower_bound | x |  | x |
| Daemon.C96_refuted |  |  |  |
| Daemon.C96_refuted_all | x | x | x |
| UrlParser.C97_relative_partial | x | x | x |
| UrlParser.C97_parts | x | x | x |
| UrlParser.C97_refuted | x | x | x |
| UrlParser.C97_upper_exact | x | x | x |
| UrlParser.C98_subdomain | x | x | x |
| UrlParser.C98_accepts | x | x | x |
| Txml.C99_load_document | x | x | x |
| Txml.C99_other_member | x |  |  |
| Txml.C99_load_again | x | x | x |
| Txml.C99_text_pieces | x |  |  |
| Txml.C99_text_only | x |  |  |
| Txml.C99_refuted_mixed_text | x | x | x |
| Txml.C99_refuted_mixed_all | x | x | x |
