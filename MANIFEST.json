{
 "claims": [
  {
   "property": "C01",
   "status": "proved",
   "theorems": [
    "Asagi.Props.C01_nearest_sample",
    "Asagi.Props.selected_unique"
   ],
   "note": "Exact arithmetic; C59 and C60 are about double precision."
  },
  {
   "property": "C02",
   "status": "proved",
   "theorems": [
    "Asagi.Props.C02_double_half_spacing",
    "Asagi.Props.C02_range_not_clamped"
   ],
   "note": "Exact arithmetic and binary64 (with tolerance)."
  },
  {
   "property": "C03",
   "status": "proved",
   "theorems": [
    "Asagi.Props.C03_dimension_order"
   ],
   "note": "Any floating point rounding."
  },
  {
   "property": "C04",
   "status": "proved",
   "theorems": [
    "Asagi.Props.C04_single_sample",
    "Asagi.Props.C04_nan_is_undefined"
   ],
   "note": "The second theorem shows the excluded inputs are undefined behaviour."
  },
  {
   "property": "C05",
   "status": "proved",
   "theorems": [
    "Asagi.Props.C05_full_value",
    "Asagi.Props.C05_full_nearest"
   ],
   "note": ""
  },
  {
   "property": "C06",
   "status": "proved",
   "theorems": [
    "Asagi.Props.C06_ownership_bijection"
   ],
   "note": ""
  },
  {
   "property": "C07",
   "status": "proved",
   "theorems": [
    "Asagi.Props.C07_fulldist_value",
    "Asagi.Props.C07_fulldist_history",
    "Asagi.Props.C07_concurrent_value",
    "Asagi.Props.C07_concurrent_nearest"
   ],
   "note": "The first two theorems have atomic accesses, the last two hold for every interleaving. The race while opening is C52."
  },
  {
   "property": "C08",
   "status": "proved",
   "theorems": [
    "Asagi.Props.C08_cache_value",
    "Asagi.Props.C08_cache_history"
   ],
   "note": ""
  },
  {
   "property": "C09",
   "status": "proved",
   "theorems": [
    "Asagi.Props.C09_shared_cache_value",
    "Asagi.Props.C09_shared_cache_nearest",
    "Asagi.Props.C09_call_possible"
   ],
   "note": "For NUMA sharing, MPI windows and the communication thread, any number of threads, domains and processes; replies are assumed to reach the requesting thread, see C37-C40."
  },
  {
   "property": "C10",
   "status": "proved",
   "theorems": [
    "Asagi.Props.C10_grid_types_agree",
    "Asagi.Props.C10_grid_types_nearest"
   ],
   "note": ""
  },
  {
   "property": "C11",
   "status": "proved",
   "theorems": [
    "Asagi.Props.C11_block_layout"
   ],
   "note": ""
  },
  {
   "property": "C12",
   "status": "proved",
   "theorems": [
    "Asagi.Props.C12_decomposition",
    "Asagi.Props.C12_open_succeeds"
   ],
   "note": ""
  },
  {
   "property": "C13",
   "status": "proved",
   "theorems": [
    "Asagi.Props.C13_replacement_terminates",
    "Asagi.Props.C13_run_succeeds",
    "Asagi.Props.C13_illegal_spread"
   ],
   "note": ""
  },
  {
   "property": "C14",
   "status": "proved",
   "theorems": [
    "Asagi.Props.C14_no_early_eviction",
    "Asagi.Props.C14_each_block_loaded_once"
   ],
   "note": ""
  },
  {
   "property": "C15",
   "status": "proved",
   "theorems": [
    "Asagi.Props.C15_second_chance",
    "Asagi.Props.C15_marks"
   ],
   "note": ""
  },
  {
   "property": "C16",
   "status": "proved",
   "theorems": [
    "Asagi.Props.C16_cache_bijection"
   ],
   "note": ""
  },
  {
   "property": "C17",
   "status": "proved",
   "theorems": [
    "Asagi.Props.C17_exclusive_complete",
    "Asagi.Props.C17_only_readers"
   ],
   "note": ""
  },
  {
   "property": "C18",
   "status": "proved",
   "theorems": [
    "Asagi.Props.C18_no_deadlock",
    "Asagi.Props.C18_every_access_returns",
    "Asagi.Props.C18_no_deadlock_mpilock",
    "Asagi.Props.C18_every_access_returns_mpilock",
    "Asagi.Props.C18_full_access_returns"
   ],
   "note": "With and without the lock of the MPI library (THREADSAFE_MPI), CACHE and distributed FULL grids."
  },
  {
   "property": "C19",
   "status": "proved",
   "theorems": [
    "Asagi.Props.C19_numa_copy"
   ],
   "note": ""
  },
  {
   "property": "C20",
   "status": "proved",
   "theorems": [
    "Asagi.Props.C20_registration",
    "Asagi.Props.C20_packed_ids"
   ],
   "note": ""
  },
  {
   "property": "C21",
   "status": "proved",
   "theorems": [
    "Asagi.Props.C21_barrier",
    "Asagi.Props.C21_progress",
    "Asagi.Props.C21_advance"
   ],
   "note": "Without spurious wake-ups, as the property states; see C23 for them."
  },
  {
   "property": "C22",
   "status": "proved",
   "theorems": [
    "Asagi.Props.C22_broadcast"
   ],
   "note": ""
  },
  {
   "property": "C23",
   "status": "partial",
   "theorems": [
    "Asagi.Props.C23_spurious_violated",
    "Asagi.Props.C23_null_violated",
    "Asagi.Props.C23_no_spurious_partial"
   ],
   "note": "The condition waits are not in loops; negation proved with a two thread execution; partial: without spurious wake-ups."
  },
  {
   "property": "C24",
   "status": "proved",
   "theorems": [
    "Asagi.Props.C24_once",
    "Asagi.Props.C24_progress",
    "Asagi.Props.C24_mutex",
    "Asagi.Props.C24_race_violated"
   ],
   "note": "For sequentially consistent memory. The first check of the state is not protected, which C++ calls a data race (C24_race_violated); everything else is ordered by the mutex (C24_mutex)."
  },
  {
   "property": "C25",
   "status": "proved",
   "theorems": [
    "Asagi.Props.C25_cache_counters",
    "Asagi.Props.C25_fulldist_counters",
    "Asagi.Props.C25_passthrough_counters"
   ],
   "note": ""
  },
  {
   "property": "C26",
   "status": "partial",
   "theorems": [
    "Asagi.Props.C26_level_violated",
    "Asagi.Props.C26_level0_partial"
   ],
   "note": "The code ignores the level argument of getCounter; negation proved; the partial theorem covers level 0."
  },
  {
   "property": "C27",
   "status": "proved",
   "theorems": [
    "Asagi.Props.C27_names",
    "Asagi.Props.C27_last_setting",
    "Asagi.Props.C27_levels_independent"
   ],
   "note": ""
  },
  {
   "property": "C28",
   "status": "partial",
   "theorems": [
    "Asagi.Props.C28_negative_violated",
    "Asagi.Props.C28_minus_one_violated",
    "Asagi.Props.C28_numbers_partial",
    "Asagi.Props.C28_limits"
   ],
   "note": "Minus signs in values are rewritten; negation proved; partial: non-negative values in the range of int, and all of it for BLOCK_SIZE_n; what happens beyond that range is proved."
  },
  {
   "property": "C29",
   "status": "partial",
   "theorems": [
    "Asagi.Props.C29_time_default_violated",
    "Asagi.Props.C29_time_block_size_partial"
   ],
   "note": "The code violates the property (the default is overwritten); negation proved, partial theorem describes what holds."
  },
  {
   "property": "C30",
   "status": "partial",
   "theorems": [
    "Asagi.Props.C30_kind_and_mpi",
    "Asagi.Props.C30_cache_numa_violated",
    "Asagi.Props.C30_cache_numa_witness",
    "Asagi.Props.C30_numa_partial",
    "Asagi.Props.C30_full_reaches_all",
    "Asagi.Props.C30_full_value",
    "Asagi.Props.C30_needs_mpi3"
   ],
   "note": "CACHE without MPI selects the opposite NUMA setting; the rest of the selection is proved."
  },
  {
   "property": "C31",
   "status": "proved",
   "theorems": [
    "Asagi.Props.C31_handles",
    "Asagi.Props.C31_close_known"
   ],
   "note": "Sequential histories; concurrent get and add are a data race in the code (see DESIGN.md)."
  },
  {
   "property": "C32",
   "status": "proved",
   "theorems": [
    "Asagi.Props.C32_node_local_rank",
    "Asagi.Props.C32_numbering"
   ],
   "note": ""
  },
  {
   "property": "C33",
   "status": "partial",
   "theorems": [
    "Asagi.Props.C33_colour_violated",
    "Asagi.Props.C33_colour_partial"
   ],
   "note": "A 23 character host name has a negative colour; partial: names of at most 15 characters, or of at most 22 ASCII characters."
  },
  {
   "property": "C34",
   "status": "proved",
   "theorems": [
    "Asagi.Props.C34_directory_content",
    "Asagi.Props.C34_lookup",
    "Asagi.Props.C34_complete",
    "Asagi.Props.C34_newest",
    "Asagi.Props.C34_owner_number",
    "Asagi.Props.C34_lossy_delete"
   ],
   "note": "C34_lossy_delete records that deleting an absent entry drops a valid one."
  },
  {
   "property": "C35",
   "status": "proved",
   "theorems": [
    "Asagi.Props.C35_window_copy"
   ],
   "note": "The directory lock is atomic here; C81 shows that the implemented lock gives the same executions (C36 and C58 are about the lock alone)."
  },
  {
   "property": "C36",
   "status": "proved",
   "theorems": [
    "Asagi.Props.C36_exclusive",
    "Asagi.Props.C36_fifo",
    "Asagi.Props.C36_release",
    "Asagi.Props.C36_progress",
    "Asagi.Props.C36_advance",
    "Asagi.Props.C36_contended",
    "Asagi.Props.C36_no_starvation"
   ],
   "note": "For locks that are initialised before they are used, see C58."
  },
  {
   "property": "C37",
   "status": "proved",
   "theorems": [
    "Asagi.Props.C37_reply_is_requested",
    "Asagi.Props.C37_block_replies",
    "Asagi.Props.C37_block_outcome"
   ],
   "note": ""
  },
  {
   "property": "C38",
   "status": "partial",
   "theorems": [
    "Asagi.Props.C38_directory_reply_violated",
    "Asagi.Props.C38_directory_wait_violated",
    "Asagi.Props.C38_one_level_partial"
   ],
   "note": "The directory reply has the same tag for all grids; partial: one level uses the communicator."
  },
  {
   "property": "C39",
   "status": "partial",
   "theorems": [
    "Asagi.Props.C39_levels_mix_violated",
    "Asagi.Props.C39_one_level_partial",
    "Asagi.Props.C39_exclusive_partial"
   ],
   "note": "All levels use tag 0; partial: one level, or several levels when open requests of different levels go to different processes."
  },
  {
   "property": "C40",
   "status": "partial",
   "theorems": [
    "Asagi.Props.C40_tags_unique",
    "Asagi.Props.C40_delivery_partial",
    "Asagi.Props.C40_reserved_ranges",
    "Asagi.Props.C40_reserved_tags_violated"
   ],
   "note": "Registration numbers run into the reserved tags after 32766 registrations; partial: before."
  },
  {
   "property": "C41",
   "status": "partial",
   "theorems": [
    "Asagi.Props.C41_c_violated",
    "Asagi.Props.C41_error_codes_partial"
   ],
   "note": "The C enumeration lacks INVALID_VAR_SIZE; partial: all others and Fortran."
  },
  {
   "property": "C42",
   "status": "partial",
   "theorems": [
    "Asagi.Props.C42_reopen_violated",
    "Asagi.Props.C42_levels_partial",
    "Asagi.Props.C42_exact_partial"
   ],
   "note": "Violated: a second level reallocates the vector of levels; partial: as long as no reallocation happens, e.g. highest level first; C42_exact_partial says for every sequence of opens which levels are usable."
  },
  {
   "property": "C43",
   "status": "proved",
   "theorems": [
    "Asagi.Props.C43_array",
    "Asagi.Props.C43_struct",
    "Asagi.Props.C43_basic"
   ],
   "note": ""
  },
  {
   "property": "C44",
   "status": "proved",
   "theorems": [
    "Asagi.Props.C44_open_errors",
    "Asagi.Props.C44_open_resources",
    "Asagi.Props.C44_thread_error"
   ],
   "note": ""
  },
  {
   "property": "C45",
   "status": "partial",
   "theorems": [
    "Asagi.Props.C45_negative_cpu_violated",
    "Asagi.Props.C45_pinning_partial"
   ],
   "note": "Negative CPU numbers are misread; partial: numbers that are not negative."
  },
  {
   "property": "C46",
   "status": "partial",
   "theorems": [
    "Asagi.Props.C46_open_result_violated",
    "Asagi.Props.C46_open_result_partial"
   ],
   "note": "Only the result of domain 0 is returned."
  },
  {
   "property": "C47",
   "status": "proved",
   "theorems": [
    "Asagi.Props.C47_full_blocks",
    "Asagi.Props.C47_cache_slots",
    "Asagi.Props.C47_pass_buffers"
   ],
   "note": ""
  },
  {
   "property": "C48",
   "status": "proved",
   "theorems": [
    "Asagi.Props.C48_blocks",
    "Asagi.Props.C48_owners",
    "Asagi.Props.C48_addresses",
    "Asagi.Props.C48_pass",
    "Asagi.Props.C48_wrap"
   ],
   "note": ""
  },
  {
   "property": "C49",
   "status": "partial",
   "theorems": [
    "Asagi.Props.C49_livelock_violated",
    "Asagi.Props.C49_noop_violated",
    "Asagi.Props.C49_only_refusals_partial",
    "Asagi.Props.C49_undisturbed_partial",
    "Asagi.Props.C49_fair_partial",
    "Asagi.Props.C49_no_trap_partial"
   ],
   "note": "Two processes can retry forever if two threads use the same NUMA domain; without thread support every request for a block of another process does. What holds: if no two threads inside of getters use the same domain, all getters return in every fair execution without new calls, and such an execution exists. In general only refused requests prolong an execution, each by a bounded number of steps, and an access that is not disturbed by others is never refused and returns."
  },
  {
   "property": "C50",
   "status": "partial",
   "theorems": [
    "Asagi.Props.C50_file_load_violated",
    "Asagi.Props.C50_names_partial"
   ],
   "note": "One documented counter name is not recognised; partial: all others."
  },
  {
   "property": "C51",
   "status": "partial",
   "theorems": [
    "Asagi.Props.C51_get_buf",
    "Asagi.Props.C51_typed_overflow_violated",
    "Asagi.Props.C51_typed_conversion_violated",
    "Asagi.Props.C51_typed_partial"
   ],
   "note": "getBuf proved; typed getters of array and struct grids copy the whole value."
  },
  {
   "property": "C52",
   "status": "partial",
   "theorems": [
    "Asagi.Props.C52_own_process",
    "Asagi.Props.C52_one_domain_partial",
    "Asagi.Props.C52_all_returned_partial",
    "Asagi.Props.C52_unloaded_violated"
   ],
   "note": "Violated with several NUMA domains per process."
  },
  {
   "property": "C53",
   "status": "partial",
   "theorems": [
    "Asagi.Props.C53_struct_description_violated",
    "Asagi.Props.C53_struct_size_partial"
   ],
   "note": "The struct description is never compared with the variable."
  },
  {
   "property": "C54",
   "status": "partial",
   "theorems": [
    "Asagi.Props.C54_earlier_receivers_partial",
    "Asagi.Props.C54_no_loss_partial",
    "Asagi.Props.C54_registered_partial",
    "Asagi.Props.C54_request_lost_violated"
   ],
   "note": "A request to the receiver registered last can be lost; partial: earlier receivers, or when all processes have registered before anyone sends."
  },
  {
   "property": "C55",
   "status": "proved",
   "theorems": [
    "Asagi.Props.C55_type_selection"
   ],
   "note": ""
  },
  {
   "property": "C56",
   "status": "proved",
   "theorems": [
    "Asagi.Props.C56_type_complete"
   ],
   "note": ""
  },
  {
   "property": "C57",
   "status": "partial",
   "theorems": [
    "Asagi.Props.C57_large_block_violated",
    "Asagi.Props.C57_rejected_violated",
    "Asagi.Props.C57_exact_violated",
    "Asagi.Props.C57_small_block_partial"
   ],
   "note": "Violated for all blocks with 2^31 values or more."
  },
  {
   "property": "C58",
   "status": "partial",
   "theorems": [
    "Asagi.Props.C58_late_init_violated",
    "Asagi.Props.C58_early_init_partial"
   ],
   "note": "A process initialises its locks after the others can use them; negation proved; partial: initialisation before use."
  },
  {
   "property": "C59",
   "status": "proved",
   "theorems": [
    "Asagi.Props.C59_double_nearest",
    "Asagi.Props.C59_rounding_correct",
    "Asagi.Props.C59_tolerance_needed"
   ],
   "note": "IEEE binary64, round to nearest even."
  },
  {
   "property": "C60",
   "status": "partial",
   "theorems": [
    "Asagi.Props.C60_defined_partial",
    "Asagi.Props.C60_exact_partial",
    "Asagi.Props.C60_overflow_violated",
    "Asagi.Props.C60_tiny_violated"
   ],
   "note": "Proved when differences do not overflow; two extreme files violate the property. C60_exact_partial says for all files and positions made of doubles exactly when the conversion is undefined."
  },
  {
   "property": "C61",
   "status": "proved",
   "theorems": [
    "Asagi.Props.C61_defaults",
    "Asagi.Props.C61_settings",
    "Asagi.Props.C61_block_extent",
    "Asagi.Props.C61_number_text",
    "Asagi.Props.C61_numa_cache"
   ],
   "note": ""
  },
  {
   "property": "C62",
   "status": "proved",
   "theorems": [
    "Asagi.Props.C62_ranges"
   ],
   "note": ""
  },
  {
   "property": "C63",
   "status": "proved",
   "theorems": [
    "Asagi.Props.C63_directory_thread",
    "Asagi.Props.C63_directory_window"
   ],
   "note": ""
  },
  {
   "property": "C64",
   "status": "proved",
   "theorems": [
    "Asagi.Props.C64_one_thread_in_mpi",
    "Asagi.Props.C64_refines",
    "Asagi.Props.C18_no_deadlock_mpilock",
    "Asagi.Props.C18_every_access_returns_mpilock",
    "Asagi.Props.C81_one_thread_in_mpi",
    "Asagi.Props.C81_value",
    "Asagi.Props.C81_no_deadlock",
    "Asagi.Props.C81_every_access_returns"
   ],
   "note": "The C81 theorems hold for both builds, with the lock of the library for lib = true. Getters of CACHE grids with MPI windows. Opening and closing grids call MPI without the lock in places (DESIGN.md, deviation 32)."
  },
  {
   "property": "C65",
   "status": "proved",
   "theorems": [
    "Asagi.Props.C65_double_value",
    "Asagi.Props.C65_value",
    "Asagi.Props.C65_nearest_value",
    "Asagi.Props.C65_same_value",
    "Asagi.Props.C65_getter_returns",
    "Asagi.Props.C65_open_succeeds"
   ],
   "note": "The exact-arithmetic versions speak of the nearest sample, C65_value and C65_same_value hold for every rounding. Levels opened in an order that reallocates the list of levels (C42), cache size 0 and a hand spread that is not below the cache size (C13) are excluded."
  },
  {
   "property": "C66",
   "status": "partial",
   "theorems": [
    "Asagi.Props.C66_start_succeeds",
    "Asagi.Props.C66_start_twice",
    "Asagi.Props.C66_stop_returns",
    "Asagi.Props.C66_open_not_started",
    "Asagi.Props.C66_delivery_partial",
    "Asagi.Props.C66_restart_violated",
    "Asagi.Props.C66_failed_start_violated",
    "Asagi.Props.C66_some_started_violated"
   ],
   "note": "Delivery is proved for programs that close their grids before they stop the thread; otherwise a restart gives old and new grids the same tags. A start that fails in pthread_create can neither be repeated nor undone, and a thread that runs on some processes of a grid only makes open hang: proved negations."
  },
  {
   "property": "C67",
   "status": "proved",
   "theorems": [
    "Asagi.Props.C67_no_request_lost",
    "Asagi.Props.C67_answered",
    "Asagi.Props.C67_close_returns",
    "Asagi.Props.C67_close_waits"
   ],
   "note": ""
  },
  {
   "property": "C68",
   "status": "partial",
   "theorems": [
    "Asagi.Props.C68_no_deadlock_partial",
    "Asagi.Props.C68_ends",
    "Asagi.Props.C68_concurrent_open_violated",
    "Asagi.Props.C68_close_order_violated"
   ],
   "note": "Proved for the same order of calls on all threads and one thread per process that opens grids with the communication thread; both conditions are needed (proved negations)."
  },
  {
   "property": "C69",
   "status": "proved",
   "theorems": [
    "Asagi.Props.C69_exact",
    "Asagi.Props.C69_widening",
    "Asagi.Props.C69_truncates",
    "Asagi.Props.C69_wraps",
    "Asagi.Props.C69_nearest",
    "Asagi.Props.C69_overflow",
    "Asagi.Props.C69_special",
    "Asagi.Props.C69_typed_value"
   ],
   "note": "The conversion by netCDF is assumed to follow the same rules."
  },
  {
   "property": "C70",
   "status": "partial",
   "theorems": [
    "Asagi.Props.C70_records_partial",
    "Asagi.Props.C70_messages_partial",
    "Asagi.Props.C70_entries_exact_partial",
    "Asagi.Props.C70_memory_partial",
    "Asagi.Props.C70_lock_ids_partial",
    "Asagi.Props.C70_rank_cache_size_violated"
   ],
   "note": "Proved if the slots of one process and the threads of all processes fit in 32 bits and the records in 63; the slots of a process are multiplied in 32 bits, which gives wrong owners or a division by zero beyond that (proved negation)."
  },
  {
   "property": "C71",
   "status": "partial",
   "theorems": [
    "Asagi.Props.C71_exact",
    "Asagi.Props.C71_running",
    "Asagi.Props.C71_returns",
    "Asagi.Props.C71_lost_update_violated",
    "Asagi.Props.C71_hits_wrap_violated"
   ],
   "note": "Proved for builds with THREADSAFE_COUNTER, derived counters only when no read is running. Without the option (the default) increments are lost, and a derived counter read during other reads can wrap around (proved negations)."
  },
  {
   "property": "C72",
   "status": "partial",
   "theorems": [
    "Asagi.Props.C72_same_partial",
    "Asagi.Props.C72_close_twice",
    "Asagi.Props.C72_padding_violated"
   ],
   "note": "Proved for strings without trailing blanks; strings from longer Fortran variables are not understood (proved negation)."
  },
  {
   "property": "C73",
   "status": "partial",
   "theorems": [
    "Asagi.Props.C73_handles_partial",
    "Asagi.Props.C73_freed_violated",
    "Asagi.Props.C73_lost_close_violated"
   ],
   "note": "Proved if no handle is used while create enlarges the table; otherwise freed memory is read or a close is lost (proved negations)."
  },
  {
   "property": "C74",
   "status": "partial",
   "theorems": [
    "Asagi.Props.C74_full",
    "Asagi.Props.C74_pass",
    "Asagi.Props.C74_cache_partial",
    "Asagi.Props.C74_cache_retry_partial",
    "Asagi.Props.C74_fulldist_partial",
    "Asagi.Props.C74_cache_stale_violated",
    "Asagi.Props.C74_cache_violated",
    "Asagi.Props.C74_fulldist_violated"
   ],
   "note": "Proved for FULL on one process and PASS_THROUGH, and for CACHE and distributed FULL for the blocks that were not in a cache at the time of the open. Blocks that were in the cache are delivered as zeros (proved negations)."
  },
  {
   "property": "C75",
   "status": "proved",
   "theorems": [
    "Asagi.Props.C75_sample_value",
    "Asagi.Props.C75_clearly_selected"
   ],
   "note": "Samples may deviate by 1/8 spacing from equidistant ones; C75_irregular_needed shows that a bound is needed. Binary64 with one rounding per operation."
  },
  {
   "property": "C76",
   "status": "proved",
   "theorems": [
    "Asagi.Props.C76_value",
    "Asagi.Props.C76_no_deadlock",
    "Asagi.Props.C102_pass_through"
   ],
   "note": "C76_other_threads_needed: threads that did not take part in open share a buffer with thread 0."
  },
  {
   "property": "C77",
   "status": "proved",
   "theorems": [
    "Asagi.Props.C77_walk",
    "Asagi.Props.C77_double_walk",
    "Asagi.Props.C77_double_range",
    "Asagi.Props.C77_walk_value",
    "Asagi.Props.C77_modest_needed"
   ],
   "note": "Exact arithmetic without bounds; binary64 for coordinates below 2^40 spacings (C77_modest_needed: some bound is needed)."
  },
  {
   "property": "C78",
   "status": "partial",
   "theorems": [
    "Asagi.Props.C78_released",
    "Asagi.Props.C78_pointers_valid",
    "Asagi.Props.C78_failed_partial",
    "Asagi.Props.C78_failed_released",
    "Asagi.Props.C78_never_opened",
    "Asagi.Props.C78_growth_double_free",
    "Asagi.Props.C78_reopen_leaks",
    "Asagi.Props.C78_reopen_receiver",
    "Asagi.Props.C78_window_leak",
    "Asagi.Props.C78_receiver_leak"
   ],
   "note": "Proved if all opens succeed, finest level first, each once; with failing opens three kinds of resources can remain (C78_window_leak, C78_receiver_leak). Violated when the vector of levels grows (double release) or a level is opened twice (deviations 45, 46)."
  },
  {
   "property": "C79",
   "status": "partial",
   "theorems": [
    "Asagi.Props.C79_same_result",
    "Asagi.Props.C79_open_returns_partial",
    "Asagi.Props.C79_returns_iff",
    "Asagi.Props.C79_agree",
    "Asagi.Props.C79_hang",
    "Asagi.Props.C79_allocation_hang",
    "Asagi.Props.C79_missing_thread",
    "Asagi.Props.C79_extra_thread",
    "Asagi.Props.C79_extra_thread_violated"
   ],
   "note": "Same result: proved in all cases. Every call returns exactly if the domains take part in the same broadcasts (C79_returns_iff), e.g. if nothing fails or all domains fail alike (C79_agree). A failure in one domain only hangs all threads (C79_hang, C79_allocation_hang; deviation 24)."
  },
  {
   "property": "C80",
   "status": "proved",
   "theorems": [
    "Asagi.Props.C80_verdict",
    "Asagi.Props.C80_same_verdict",
    "Asagi.Props.C80_type_complete",
    "Asagi.Props.C80_created_once",
    "Asagi.Props.C80_progress",
    "Asagi.Props.C80_terminates",
    "Asagi.Props.C80_success_before_type"
   ],
   "note": "MPI calls are assumed to succeed, the barriers have the meaning of C21. C80_success_before_type shows that check alone does not guarantee a complete type; the broadcast in NumaComm::allocate does."
  },
  {
   "property": "C81",
   "status": "proved",
   "theorems": [
    "Asagi.Props.C81_refines",
    "Asagi.Props.C81_entry_current",
    "Asagi.Props.C81_exclusive",
    "Asagi.Props.C81_window_copy",
    "Asagi.Props.C81_value",
    "Asagi.Props.C81_no_deadlock",
    "Asagi.Props.C81_every_access_returns",
    "Asagi.Props.C81_one_thread_in_mpi",
    "Asagi.Props.C102_window"
   ],
   "note": "Threads took part in open (distinct numbers below the number of threads per process). MPI windows are assumed to have the unified memory model."
  },
  {
   "property": "C82",
   "status": "partial",
   "theorems": [
    "Asagi.Props.C82_refines",
    "Asagi.Props.C82_reply_owner",
    "Asagi.Props.C82_one_reply",
    "Asagi.Props.C82_one_waits",
    "Asagi.Props.C82_request_owner",
    "Asagi.Props.C82_send_buffer",
    "Asagi.Props.C82_received",
    "Asagi.Props.C82_value",
    "Asagi.Props.C82_no_deadlock",
    "Asagi.Props.C82_only_refusals_partial",
    "Asagi.Props.C82_undisturbed_partial",
    "Asagi.Props.C82_other_levels_violated"
   ],
   "note": "All theorems but the last are about the first level of a grid (tagOffset 0). Missing: a bound on the number of refused requests (see C49), and the other levels, where a thread that asks for a directory entry waits for ever."
  },
  {
   "property": "C83",
   "status": "proved",
   "theorems": [
    "Asagi.Props.C83_refines",
    "Asagi.Props.C83_reply_owner",
    "Asagi.Props.C83_request_owner",
    "Asagi.Props.C83_received",
    "Asagi.Props.C83_one_transfer",
    "Asagi.Props.C83_window_bounds",
    "Asagi.Props.C83_value",
    "Asagi.Props.C83_returns",
    "Asagi.Props.C102_full_transfer"
   ],
   "note": "One level of the grid is in use. With the communication thread and several levels the replies of the levels can be mixed up, because all use tag 0 (C39)."
  },
  {
   "property": "C84",
   "status": "proved",
   "theorems": [
    "Asagi.Props.C84_refines",
    "Asagi.Props.C84_nearest_value",
    "Asagi.Props.C84_getter_returns"
   ],
   "note": "That a getter returns is proved for threads that took part in open, while nobody else uses the grid; with other threads see C87 (windows), C49 and C82 (communication thread). With the communication thread the level is the first of its grid."
  },
  {
   "property": "C85",
   "status": "proved",
   "theorems": [
    "Asagi.Props.C85_level",
    "Asagi.Props.C85_value",
    "Asagi.Props.C85_one_user",
    "Asagi.Props.C85_no_deadlock",
    "Asagi.Props.C85_every_access_returns",
    "Asagi.Props.C102_levels"
   ],
   "note": "Levels with the communication thread are not included: several such levels disturb each other (C38, C39, C82). Non-distributed FULL levels have no locks and no steps that can wait."
  },
  {
   "property": "C86",
   "status": "proved",
   "theorems": [
    "Asagi.Props.C86_round_robin",
    "Asagi.Props.C86_filled",
    "Asagi.Props.C86_even",
    "Asagi.Props.C86_consecutive"
   ],
   "note": "The tabulation of preprocess/test/test_index.py, for all sizes."
  },
  {
   "property": "C87",
   "status": "proved",
   "theorems": [
    "Asagi.Props.C87_value",
    "Asagi.Props.C87_nearest_value",
    "Asagi.Props.C87_one_user",
    "Asagi.Props.C87_every_access_returns",
    "Asagi.Props.C87_getter_returns",
    "Asagi.Props.C87_starts",
    "Asagi.Props.C102_program"
   ],
   "note": "Levels with the communication thread are not included: several such levels disturb each other (C38, C39, C82)."
  },
  {
   "property": "C88",
   "status": "proved",
   "theorems": [
    "Asagi.Props.C88_level",
    "Asagi.Props.C88_value",
    "Asagi.Props.C88_one_user",
    "Asagi.Props.C88_one_service",
    "Asagi.Props.C88_delivered",
    "Asagi.Props.C88_no_deadlock",
    "Asagi.Props.C88_returns",
    "Asagi.Props.C88_every_access_returns"
   ],
   "note": "One level per grid with the communication thread (several ones disturb each other: C38, C39). Grids may be opened by different processes. Refusals again and again are the deviation of C49."
  },
  {
   "property": "C89",
   "status": "proved",
   "theorems": [
    "Asagi.Props.C89_value",
    "Asagi.Props.C89_nearest_value",
    "Asagi.Props.C89_one_user",
    "Asagi.Props.C89_delivered",
    "Asagi.Props.C89_no_deadlock",
    "Asagi.Props.C89_returns",
    "Asagi.Props.C89_can_call",
    "Asagi.Props.C89_every_access_returns",
    "Asagi.Props.C89_getter_returns",
    "Asagi.Props.C89_starts"
   ],
   "note": "One level per grid with the communication thread (several ones disturb each other: C38, C39). Grids may be opened by different processes. Refusals again and again are the deviation of C49; without CACHE grids with the communication thread every access returns."
  },
  {
   "property": "C90",
   "status": "partial",
   "theorems": [
    "Asagi.Props.C90_levels",
    "Asagi.Props.C90_value",
    "Asagi.Props.C90_history",
    "Asagi.Props.C90_history_in_use",
    "Asagi.Props.C90_in_use",
    "Asagi.Props.C90_one_in_mpi_partial",
    "Asagi.Props.C90_no_deadlock",
    "Asagi.Props.C90_every_call_returns",
    "Asagi.Props.C90_one_in_mpi_violated",
    "Asagi.Props.C90_two_openers_violated"
   ],
   "note": "Missing: exclusive use of MPI by the barrier of close and by the creation and deletion of MPI types, which the code enters without the lock. Grids without the communication thread."
  },
  {
   "property": "C91",
   "status": "partial",
   "theorems": [
    "Asagi.Props.C91_one_changes",
    "Asagi.Props.C91_delivered",
    "Asagi.Props.C91_request_sent",
    "Asagi.Props.C91_no_call_after_close",
    "Asagi.Props.C91_stop_empty",
    "Asagi.Props.C91_returns",
    "Asagi.Props.C91_race_partial",
    "Asagi.Props.C91_read_while_erased_violated",
    "Asagi.Props.C91_read_while_inserted_violated",
    "Asagi.Props.C91_foreign_unlock_violated",
    "Asagi.Props.C91_noop_violated"
   ],
   "note": "Missing: the table is read without the lock, so a message during open and a getter after close read it while it is changed; the lock of close is released by the communication thread. C91_race_partial says when this can happen."
  },
  {
   "property": "C92",
   "status": "proved",
   "theorems": [
    "Asagi.Props.C92_in_use",
    "Asagi.Props.C92_served",
    "Asagi.Props.C92_after_barrier",
    "Asagi.Props.C92_outside",
    "Asagi.Props.C92_message",
    "Asagi.Props.C92_returns",
    "Asagi.Props.C92_full_in_use",
    "Asagi.Props.C92_full_served",
    "Asagi.Props.C92_full_after_barrier",
    "Asagi.Props.C92_full_outside",
    "Asagi.Props.C92_full_message",
    "Asagi.Props.C92_full_returns",
    "Asagi.Props.C92_win_in_use",
    "Asagi.Props.C92_win_after_barrier",
    "Asagi.Props.C92_win_freed",
    "Asagi.Props.C92_win_returns"
   ],
   "note": "CACHE grids with the communication thread or with windows, FULL grids with the communication thread or with windows. One level per grid with the communication thread (several ones disturb each other: C38, C39)."
  },
  {
   "property": "C93",
   "status": "proved",
   "theorems": [
    "Asagi.Props.C93_full",
    "Asagi.Props.C93_cache"
   ],
   "note": "Single-threaded histories; the CACHE part is for one process and one NUMA domain."
  },
  {
   "property": "C94",
   "status": "partial",
   "theorems": [
    "Asagi.Props.C94_full",
    "Asagi.Props.C94_cache_partial",
    "Asagi.Props.C94_later_partial",
    "Asagi.Props.C94_later_basic",
    "Asagi.Props.C94_retry",
    "Asagi.Props.C94_levels_exact_partial",
    "Asagi.Props.C94_levels_partial",
    "Asagi.Props.C94_cache_violated",
    "Asagi.Props.C94_pass_violated",
    "Asagi.Props.C94_wrong_size_violated",
    "Asagi.Props.C94_later_violated",
    "Asagi.Props.C94_levels_violated"
   ],
   "note": "Proved: FULL levels keep their values if the file or variable is missing, CACHE levels as far as the blocks are in the cache; errors of the file or the variable have no influence on later opens, and no failure has for basic types; an open can be repeated; other levels stay if the finest one was opened first. False in all other cases, with witnesses."
  },
  {
   "property": "C95",
   "status": "proved",
   "theorems": [
    "Asagi.Props.C95_level",
    "Asagi.Props.C95_value",
    "Asagi.Props.C95_in_use",
    "Asagi.Props.C95_outside",
    "Asagi.Props.C95_one_user",
    "Asagi.Props.C95_one_service",
    "Asagi.Props.C95_delivered",
    "Asagi.Props.C95_no_deadlock",
    "Asagi.Props.C95_returns",
    "Asagi.Props.C95_kept_open",
    "Asagi.Props.C95_can_call",
    "Asagi.Props.C95_other_order"
   ],
   "note": "One level per grid with the communication thread (several ones disturb each other: C38, C39); all grids are opened by all processes. Refusals again and again are the deviation of C49. C95_other_order shows that the processes have to close the grids in one order."
  },
  {
   "property": "C96",
   "status": "proved",
   "theorems": [
    "Asagi.Props.C96_value",
    "Asagi.Props.C96_nearest_value",
    "Asagi.Props.C96_can_call",
    "Asagi.Props.C96_in_use",
    "Asagi.Props.C96_outsider",
    "Asagi.Props.C96_outside",
    "Asagi.Props.C96_one_user",
    "Asagi.Props.C96_delivered",
    "Asagi.Props.C96_no_deadlock",
    "Asagi.Props.C96_returns",
    "Asagi.Props.C96_all_close",
    "Asagi.Props.C96_getter_returns",
    "Asagi.Props.C96_can_close",
    "Asagi.Props.C96_kept_open",
    "Asagi.Props.C96_starts"
   ],
   "note": "C89 with close, and C95 for grids that were configured by setParam and opened by some of the processes. As in C89, a grid with the communication thread has one level. Refusals again and again are the deviation of C49; that the processes have to close the grids in one order is C95_other_order."
  },
  {
   "property": "C97",
   "status": "proved",
   "theorems": [
    "Asagi.Props.C97_one_place",
    "Asagi.Props.C97_counters",
    "Asagi.Props.C97_counters_running",
    "Asagi.Props.C97_histories",
    "Asagi.Props.C97_full_one_place",
    "Asagi.Props.C97_full_counters",
    "Asagi.Props.C97_full_counters_running",
    "Asagi.Props.C97_full_histories",
    "Asagi.Props.C97_increments",
    "Asagi.Props.C97_counters_locked",
    "Asagi.Props.C97_increment_alone",
    "Asagi.Props.C97_increments_histories",
    "Asagi.Props.C97_unlocked_violated",
    "Asagi.Props.C97_full_increments",
    "Asagi.Props.C97_full_counters_locked",
    "Asagi.Props.C97_full_increments_histories",
    "Asagi.Props.C97_increment_progress",
    "Asagi.Props.C97_increment_ends",
    "Asagi.Props.C97_full_increment_progress",
    "Asagi.Props.C97_counters_single"
   ],
   "note": "Extends C25 and C93 to all interleavings of threads, domains and processes. The increments are also modelled as lock, read and write (build option THREADSAFE_COUNTER); without the option the claim is false if a domain has several threads (C97_unlocked_violated) and proved for CACHE grids if each domain has one thread (C97_counters_single). A FULL access to a block of the own domain is complete for the record before its increment. MPI transfers of CACHE grids are those through the directory; the entry may belong to another domain of the own process."
  },
  {
   "property": "C98",
   "status": "proved",
   "theorems": [
    "Asagi.Props.C98_copied_again",
    "Asagi.Props.C98_read_again",
    "Asagi.Props.C98_no_eviction",
    "Asagi.Props.C98_from_file",
    "Asagi.Props.C98_once",
    "Asagi.Props.C98_file_counter",
    "Asagi.Props.C98_file_counters",
    "Asagi.Props.C98_all_returned",
    "Asagi.Props.C98_histories",
    "Asagi.Props.C98_thread_reads_twice",
    "Asagi.Props.C98_domains_read_twice",
    "Asagi.Props.C98_full_copied_again",
    "Asagi.Props.C98_full_no_eviction",
    "Asagi.Props.C98_full_foreign",
    "Asagi.Props.C98_full_all_returned",
    "Asagi.Props.C98_full_histories"
   ],
   "note": "An eviction is the moment in which a thread takes the slot of the old block for a new one. C98_read_again and C98_once are for MPI windows; the two counterexamples show that they do not hold with the communication thread or between NUMA domains without MPI. The theorems C98_full_* are for distributed FULL grids."
  },
  {
   "property": "C99",
   "status": "proved",
   "theorems": [
    "Asagi.Props.C99_copies",
    "Asagi.Props.C99_copy",
    "Asagi.Props.C99_getBuf",
    "Asagi.Props.C99_whole_value",
    "Asagi.Props.C99_basic_and_array",
    "Asagi.Props.C99_undeclared_violated",
    "Asagi.Props.C99_too_large_violated",
    "Asagi.Props.C99_too_large_undefined"
   ],
   "note": "The declared members must be inside of the values of the file (ProperDecl); the code does not check this, see the counterexamples and deviations 51 and 52 in DESIGN.md."
  },
  {
   "property": "C100",
   "status": "proved",
   "theorems": [
    "Asagi.Props.C100_refines",
    "Asagi.Props.C100_same_result",
    "Asagi.Props.C100_value",
    "Asagi.Props.C100_returns",
    "Asagi.Props.C100_returns_iff",
    "Asagi.Props.C100_hang"
   ],
   "note": "Refines the model of C79, whose barriers count arrivals, by the functions of threads/sync.h (C21-C23), one object for all threads and any assignment of objects to the broadcasts of the domains. Spurious wake-ups are not part of this model: C23 shows what they do to the barriers."
  },
  {
   "property": "C101",
   "status": "proved",
   "theorems": [
    "Asagi.Props.C101_writes",
    "Asagi.Props.C101_complete",
    "Asagi.Props.C101_extra_thread_violated",
    "Asagi.Props.C101_spurious_violated"
   ],
   "note": "The two negations show what the hypotheses are needed for: more threads than announced, and spurious wake-ups (C23)."
  },
  {
   "property": "C102",
   "status": "proved",
   "theorems": [
    "Asagi.Props.C102_cache",
    "Asagi.Props.C102_cache_mpilock",
    "Asagi.Props.C102_window",
    "Asagi.Props.C102_full",
    "Asagi.Props.C102_full_transfer",
    "Asagi.Props.C102_pass_through",
    "Asagi.Props.C102_levels",
    "Asagi.Props.C102_program",
    "Asagi.Props.C102_unfair_lock_violated"
   ],
   "note": "C102_unfair_lock_violated shows that fair locks are needed. With the communication thread accesses can wait for ever in a cycle of processes (C49), so these grids are excluded. The distributed lock is atomic in C102_cache and C102_cache_mpilock, and the implemented one in C102_window. C102_full reads blocks of other processes directly; C102_full_transfer has the implemented requests and replies or windows and assumes that every communication thread goes on receiving. C102_levels: several levels that share the locks of the MPI and netCDF libraries; C102_program: the same from the setParam calls on, with all implementations that they can select."
  }
 ]
}