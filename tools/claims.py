claim("C12", "partial", ["Verif.Mute.theta_psi_complementary", "Verif.Mute.theta_psi_not_complementary_late",
  "Verif.Mute.gate7_complementary", "Verif.Mute.gate6_gate10_complementary"],
  "Complementarity proved for all traces whose taper windows lie inside the trace; a concrete late-arrival trace refutes it in general.")
claim("C13", "partial", ["Verif.Mute.gate1_mutes_early", "Verif.Mute.gateM1_mutes_late", "Verif.Mute.gate0_mutes_between",
  "Verif.Mute.gate4_keeps_between", "Verif.Mute.gate0_time_symmetric", "Verif.Mute.gateM2_leaves_hole"],
  "Proved per mode; mode -2 violates it (gateM2_leaves_hole).")
claim("C14", "proved", ["Verif.Mute.mapj_periodic", "Verif.Mute.mapj_in_range_iff"], "")
claim("C23", "partial", ["Verif.Fd.recorded_steps", "Verif.Fd.inRange_iff", "Verif.Fd.default_inRange_iff",
  "Verif.Fd.split_out_of_range", "Verif.Fd.recorded_trace_partial", "Verif.Fd.spill_into_next_trace"],
  "False of the code when the recording interval is not a multiple of dtrcv; exact characterisation proved.")
claim("C22", "proved", ["Verif.Fd.every_shot_once"], "For every monotone single-precision rounding and up to 2^21 shots.")
claim("C24", "partial", ["Verif.Fd.shots_independent_partial", "Verif.Fd.visco_memory_survives", "Verif.Fd.visco_shots_dependent", "Verif.Fd.beams_accumulate"],
  "Proved for every kernel and all schemes except visco-acoustic with nfw>1; refuted there and for beams.")
claim("C25", "partial", ["Verif.Fd.all_shots_kept_partial", "Verif.Fd.shots_kept_when_line_leaves_model", "Verif.Fd.shots_lost", "Verif.Fd.kept_shots_inside", "Verif.Fd.first_shot_outside"],
  "Refuted when the line leaves the model (one shot too many is dropped); proved otherwise.")
claim("C07", "proved", ["Verif.Fft.kfFactor_plan", "Verif.Fft.kfFactor_fits", "Verif.Fft.kfFactor_spec", "Verif.Fft.kfFactor_radix_prime"], "")
claim("C08", "proved", ["Verif.Fft.kfWork_dft", "Verif.Fft.kiss_fft_is_dft"], "Exact complex arithmetic.")
claim("C09", "partial", ["Verif.Fft.sign_honoured_partial", "Verif.Fft.two_threads_wrong_sign"], "Every single-threaded history; refuted for two threads.")
claim("C10", "proved", ["Verif.Fft.dft_roundtrip", "Verif.Fft.cc1_roundtrip"], "")
claim("C05","partial",["Verif.Fft.optncc_ge_partial","Verif.Fft.optncr_ge_partial","Verif.Fft.optn_ge_partial'","Verif.Fft.optn_too_short","Verif.Fft.optncc_too_short_beyond_table"],"true for n<=16384 and, up to the table limit, for every n not within the factor 1+1/8192 above a power of two; false in general: 16385 -> 16384, and every non power of two above 720720 -> 720720")
claim("C06","proved",["Verif.Fft.npfa_least","Verif.Fft.npfar_least","Verif.Fft.npfa_mono","Verif.Fft.npfa_idem","Verif.Fft.npfa_too_short","Verif.Fft.npfao_cheapest"],"up to the table limit; beyond it the request is silently not met")
claim("C11","partial",["Verif.Fft.crdft_rcdft_odd_partial","Verif.Fft.crdft_rcdft_even_iff","Verif.Fft.crdft_rcdft_even_wrong"],"true for odd n; false for every even n (the code subtracts +-n/4): the exact error is given by crdft_rcdft")
claim("C15","proved",["Verif.Marchenko.reverseShot_reverses","Verif.Marchenko.reverseShot_involutive"],"")
claim("C16","proved",["Verif.Marchenko.rotate_is_circular_shift","Verif.Marchenko.rotate_loses_nothing","Verif.Marchenko.rotate_t0_in_middle","Verif.Marchenko.rotate_odd_loses_t0","Verif.Marchenko.nts_even"],"for the even transform lengths the program produces (nts_even); an odd length would lose a sample (rotate_odd_loses_t0)")
claim("C17","partial",["Verif.Marchenko.last_sample_lost","Verif.Marchenko.all_samples_used_partial","Verif.Marchenko.no_padding_partial","Verif.Marchenko.short_transform_overflows"],"refuted: the last recorded sample is not copied when padding; the exact set of used samples is proved")
claim("C18","partial",["Verif.Marchenko.ngath_counts_runs","Verif.Marchenko.gather_length_partial","Verif.Marchenko.single_trace_gathers","Verif.Marchenko.extent_is_tight"],"gather count proved for all files; the maximal length is refuted for single-trace gathers and proved otherwise")
claim("C48","proved",["Verif.Marchenko.firstBreak_tracks","Verif.Marchenko.firstBreak_tracks_reversed","Verif.Marchenko.Tracked.smooth"],"")
claim("C19","partial",["Verif.Marchenko.positions_sorted_and_complete_partial","Verif.Marchenko.accepted_in_range","Verif.Marchenko.position_minus_one","Verif.Marchenko.position_overflow"],"proved when accepted shots fall on operator positions, which holds if the one-per-mille margin is below half a grid step; refuted otherwise (position -1, write outside ixpos)")
claim("C20","proved",["Verif.Marchenko.synthesis_schedule_independent","Verif.Marchenko.synthesis_lost_update","Verif.Marchenko.reciprocal_schedule_independent","Verif.Par.par_eq_seq","Verif.Marchenko.SynIn.sum_eq"],"interleaving semantics at the granularity of single reads and writes")
claim("C21","partial",["Verif.Marchenko.Iter.iteration_sums_partial","Verif.Marchenko.Iter.f2_from_f1_partial","Verif.Marchenko.Iter.green_decomposition_partial","Verif.Marchenko.Iter.conj_is_reversal"],"for arbitrary response and mute operators; the variant above=-2, which mutes f1- again in every even iteration, is excluded")
claim("C44","partial",["Verif.Util.gcd_uint_trivial_partial","Verif.Util.gcd_uint_diverges","Verif.Util.strip_finishes"],"refuted: for different non-zero arguments the function never returns (no subtraction in the loop); the trivial pairs are proved")
claim("C45","proved",["Verif.Util.extendModel_correct","Verif.Util.extendModel_coordinates"],"")
claim("C46","partial",["Verif.Util.correlate_conj_product","Verif.Util.coherence_modulus_partial","Verif.Util.coherence_above_one","Verif.Util.coherence_uninitialised"],"correlation proved for all inputs; coherence proved when no product of amplitudes equals the threshold, refuted on the threshold")
claim("C47","partial",["Verif.Util.transpose_correct_partial","Verif.Util.transpose_overruns","Verif.Util.transpose_shared_j_race"],"proved for multiples of the block size; overrun and data race shown otherwise")
claim("C01","proved",["Verif.Getpar.getparstring_last_wins","Verif.Getpar.query_after","Verif.Getpar.getpar_same_value","Verif.Getpar.absent_or_last"],"for every history of initargs and queries")
claim("C02","partial",["Verif.Getpar.absent_leaves_default","Verif.Getpar.stores_exactly_count_partial","Verif.Getpar.empty_value_looks_absent"],"absent case and exact extent of the writes proved; 'returns at least 1' refuted for an empty value")
claim("C03","proved",["Verif.Getpar.comma_list_complete","Verif.Getpar.comma_list_from_command_line"],"")
claim("C04","partial",["Verif.Getpar.parfile_words_partial","Verif.Getpar.parfile_value_seen","Verif.Getpar.pfname_last","Verif.Getpar.pfname_absent","Verif.Getpar.last_byte_lost","Verif.Getpar.last_byte_lost_witness","Verif.Getpar.leading_quote_overruns","Verif.Getpar.trailing_text_overruns"],"refuted: the last byte of the file is ignored; proved for files that end in a blank, including quoted values; a word starting with a quote overruns the word array")
claim("C49","partial",["Verif.Getpar.eatoi_exact_or_error","Verif.Getpar.eatoh_exact_or_error","Verif.Getpar.eatol_exact_or_error","Verif.Getpar.unsigned_exact_or_error_partial","Verif.Getpar.unsigned_wraps","Verif.Getpar.stale_errno_rejects"],"signed conversions proved; unsigned conversions wrap negative texts; a stale errno makes valid texts fail")
claim("C26","partial",["Verif.Fd.Acou.step_in_bounds_partial","Verif.Fd.Acou.step_out_of_bounds"],"proved for every grid whose sides next to a PML top or bottom are padded; otherwise every such grid reads outside its arrays")
claim("C27","proved",["Verif.Fd.Acou.propagate_linear","Verif.Fd.Acou.propagate_rest","Verif.Fd.Acou.propagate_medium"],"exact arithmetic; boundary types 1-4, fourth-order scheme")
claim("C28","partial",["Verif.Fd.Acou.parSteps_eq_partial","Verif.Fd.Acou.parSteps_exists","Verif.Fd.Acou.parStepsS_eq_partial","Verif.Fd.Acou.parStepsS_exists","Verif.Fd.Acou.sources_any_order","Verif.Fd.Acou.recording_race","Verif.Fd.Acou.wall_race"],"interleavings of single reads and writes, without (parSteps) and with sources (parStepsS; sources inject in any order, one at a time, as in the critical section); proved for at least 3 by 3 points; one-row rigid grids race, and so does recording at a free surface (no barrier before it)")
claim("C29","partial",["Verif.Fd.Acou.finite_speed_partial","Verif.Fd.Acou.inner_wall_jumps"],"three points per step, for every medium and support; free, rigid and taper sides; PML not covered; a rigid right or bottom wall opposite a padded side carries the field further (refuted there)")
claim("C51","proved",["Verif.Fd.Acou.interior_velocity","Verif.Fd.Acou.interior_pressure"],"acoustic4 without source, exact arithmetic")
claim("C52","proved",["Verif.Fd.Acou.free_surface_pressure_zero","Verif.Fd.Acou.free_surface_source"],"acoustic4; the row and columns the code treats as free surface (Freed); with sources, at every element that is not saved for a source (free_surface_source)")
claim("C53","partial",["Verif.Fd.Acou.derivative_exact_partial","Verif.Fd.Acou.acoustic_slope","Verif.Fd.Acou.acoustic_slope_wrong"],"exact for the Taylor coefficients; refuted for the optimised coefficients of acoustic4 (slope 0.99999964)")
claim("C30","partial",["Verif.Fd.Source.file_wavelet_interpolated_partial","Verif.Fd.Source.interp_at_samples","Verif.Fd.Source.interp_between","Verif.Fd.Source.point_source_sample","Verif.Fd.Source.last_sample_silent","Verif.Fd.Source.random_in_bounds_partial","Verif.Fd.Source.random_overrun"],"wavelets from a file: proved, except that the last sample is never applied (refuted); random signals read one sample beyond their buffer when the fraction of the duration is below one half (refuted), otherwise in bounds")
claim("C31","partial",["Verif.Fd.Receiver.vz_to_vx","Verif.Fd.Receiver.vx_to_vz","Verif.Fd.Receiver.vz_to_p_acoustic","Verif.Fd.Receiver.vx_to_p_acoustic","Verif.Fd.Receiver.vz_to_p_elastic","Verif.Fd.Receiver.txz_to_p","Verif.Fd.Receiver.p_to_vz","Verif.Fd.Receiver.exact_position","Verif.Fd.Receiver.exact_at_node","Verif.Fd.Receiver.vx_to_p_elastic_wrong","Verif.Fd.Receiver.vx_to_p_visco_null","Verif.Fd.Receiver.p_null","Verif.Fd.Receiver.p_to_vx_wrong","Verif.Fd.Receiver.vx_to_p_left_edge","Verif.Fd.Receiver.vz_vx_apart","Verif.Fd.Receiver.exact_vx_shifted"],"the means and positions are proved where they hold; refuted for vx to P in the elastic and visco-acoustic schemes, P to vx, receivers on the first column, and exact-position recording of vx")
claim("C32","proved",["Verif.Zfp.round_trip","Verif.Zfp.flushed_memory"],"every word size from 1 to 64 bits; strided streams not modelled")
claim("C33","proved",["Verif.Zfp.seek_read","Verif.Zfp.seek_write","Verif.Zfp.skip_tell","Verif.Zfp.align_tell","Verif.Zfp.copy_correct"],"")
claim("C34","proved",["Verif.Zfp.negabinary_bijective","Verif.Zfp.negabinary_value32","Verif.Zfp.negabinary_value64","Verif.Zfp.few_planes32","Verif.Zfp.few_planes64","Verif.Zfp.drop_planes32","Verif.Zfp.drop_planes64"],"")
claim("C35","proved",["Verif.Zfp.order_round_trip","Verif.Zfp.order_round_trip_tables","Verif.Zfp.sequency_order","Verif.Zfp.perm1_lists","Verif.Zfp.perm2_lists","Verif.Zfp.perm3_lists","Verif.Zfp.perm4_lists"],"")
claim("C36","proved",["Verif.Zfp.blocks_round_trip","Verif.Zfp.decoded_enough","Verif.Zfp.decoded_exact","Verif.Zfp.max_bits_suffices","Verif.Zfp.max_bits_tight"],
 "Both coders (blocks of at most 64 values and larger ones), any word size of the stream, any sequence of blocks, budgets and precisions. 'Enough' is planes*size + size-1 bits, and ZFP_MAX_BITS is exactly that for 4-D doubles plus 12 exponent bits.")
claim("C37","proved",["Verif.Zfp.blocks_round_trip","Verif.Zfp.embedded","Verif.Zfp.progressive","Verif.Zfp.decoder_total"],
 "Every budget cut; a smaller budget gives a prefix; a decoder with a smaller budget gets the covered planes exactly; a decoder on arbitrary memory finishes within its budget and inside the block.")
claim("C38","proved",["Verif.Zfp.lift_round_trip","Verif.Zfp.xform_round_trip","Verif.Zfp.errB_values","Verif.Zfp.errB_le","Verif.Zfp.lift_overflows","Verif.Zfp.inv_lift_overflows"],
 "One to four dimensions, any word width, with overflow either undefined or wrapping; at most 2 units per value in one dimension for exact coefficients, errB d delta for coefficients off by delta. Outside the stated range the transform overflows (proved).")
claim("C54","proved",["Verif.Zfp.int_blocks_round_trip","Verif.Zfp.random_access","Verif.Zfp.fixed_rate_encode","Verif.Zfp.fixed_rate_decode","Verif.Zfp.truncated_overflow"],
 "Integer blocks of 32 and 64 bit words in one to four dimensions. With overflow undefined the error bound needs the room stated in Keeps; without it decoding has undefined behaviour (truncated_overflow).")
claim("C55","partial",["Verif.Zfp.float_block_size","Verif.Zfp.float_round_trip","Verif.Zfp.float_accuracy_partial","Verif.Zfp.accuracy_violated","Verif.Zfp.tiny_block","Verif.Zfp.budget_violated","Verif.Zfp.room_float","Verif.Zfp.room_double"],
 "Floating-point values are rationals and the rounding of the decoded value is a parameter. The tolerance is proved except when the common exponent is one below minexp; there it is exceeded (accuracy_violated). Blocks of tiny floats overflow the scale factor (tiny_block) and a maximum below the exponent bits is exceeded (budget_violated).")
claim("C39","partial",["Verif.Zfp.header_round_trip","Verif.Zfp.header_accepts","Verif.Zfp.short_modes","Verif.Zfp.metadata_truncated"],
 "Every mask, field and parameter the format can represent, at any stream position. Sizes beyond the bits of the format are written without a check and read back wrong (metadata_truncated).")
claim("C56","partial",["Verif.Zfp.set_accuracy","Verif.Zfp.set_accuracy_block_partial","Verif.Zfp.set_precision","Verif.Zfp.set_rate","Verif.Zfp.settings_fit","Verif.Zfp.accuracy_violated"],
 "Settings proved in exact arithmetic. The tolerance of a block is proved except at one exponent, where it is exceeded (accuracy_violated).")
claim("C57","partial",["Verif.Zfp.int_maximum_size_partial","Verif.Zfp.float_maximum_size_partial","Verif.Zfp.maximum_size_wraps","Verif.Zfp.maximum_size_violated"],
 "Proved for all contents, strides and parameters when the number of bits fits 64 bits, sizes are at most 2^32-4 and a float budget holds the exponent. Both exceptions are violated (maximum_size_wraps, maximum_size_violated). Integer magnitudes are below a quarter of the range, as the library documents.")
claim("C58","partial",["Verif.Zfp.int_array_round_trip","Verif.Zfp.float_array_round_trip_partial","Verif.Zfp.default_strides","Verif.Zfp.default_strides_violated","Verif.Zfp.loop_never_ends","Verif.Zfp.no_dimensions"],
 "All sizes up to 2^32-4 in one to four dimensions, any strides without overlap, serial execution. Violated beyond: default strides wrap (default_strides_violated), loops do not end (loop_never_ends), empty fields (no_dimensions).")
claim("C42","proved",["Verif.Util.polint_interpolates","Verif.Util.polint_passes_through","Verif.Util.polint_stops"],"exact arithmetic; any number of points; two equal abscissae stop the program")
claim("C43","proved",["Verif.Util.spline_interpolates","Verif.Util.spline_passes_through","Verif.Util.spline_one_point"],"exact arithmetic; two or more points with increasing abscissae. With a single point the routine writes outside its scratch array (spline_one_point)")
claim("C59","partial",["Verif.Util.linear_interface_partial","Verif.Util.poly_interface_partial","Verif.Util.spline_interface_partial","Verif.Util.linear_interface_drifts","Verif.Util.linear_interface_outside","Verif.Util.linear_interface_one_point"],
 "Linear: proved for points on grid columns inside the model. Off the grid the interface drifts from the points (linear_interface_drifts), points left of the model are written in front of the array (linear_interface_outside), one point leaves the range unset (linear_interface_one_point). Polynomial and spline: proved for points inside the model.")
claim("C60","partial",["Verif.Util.grid_below","Verif.Util.grid_above_partial","Verif.Util.grid_gradient_partial","Verif.Util.grid_gradient_spills","Verif.Util.grid_gradient_outside","Verif.Util.grid_gradient_overshoots","Verif.Util.grid_above_outside"],
 "Proved below the interface for all depths, above it when it lies inside the grid, with a gradient zone when it ends inside the grid. Otherwise the zone runs into the next column, past the grid or beyond the new value (the four witnesses).")
claim("C61","partial",["Verif.Util.makemod_layers_partial"],"any list of interfaces on grid columns, linear interpolation, one velocity per layer, no gradient")
claim("C62","partial",["Verif.Util.lateral_one","Verif.Util.lateral_two_partial","Verif.Util.lateral_many_partial","Verif.Util.lateral_shifts","Verif.Util.lateral_two_outside"],
 "Proved for points on grid columns, at least two columns apart. Neighbouring points shift the velocities (lateral_shifts) and points off the grid write into the row of given velocities (lateral_two_outside).")

claim("C40","proved",["Verif.Zfp.promote_demote","Verif.Zfp.demote_saturates","Verif.Zfp.demote_error"],"int8, uint8, int16 and uint16 blocks of every dimension. Demotion rounds down and saturates; an error of any size below the value lowers it by one.")
claim("C41","partial",["Verif.Zfp.cache_refines","Verif.Zfp.new_array","Verif.Zfp.cache_transparent","Verif.Zfp.read_after_write","Verif.Zfp.reads_keep_data","Verif.Zfp.flush_once","Verif.Zfp.cache_size","Verif.Zfp.cache_replaces","Verif.Zfp.cache_tag_wraps"],"Every sequence of get/set/copy/flush/clear/resize calls, every cache size up to 2^31 lines, direct mapped and two-way with either hash, refines an array without cache in which changed blocks are compressed at some moments. The compressor enters through its laws (Store.Laws): encoding a block leaves the others alone and a decoded block is related to the encoded one; the laws are not derived from the float codec model. Fails (cache_tag_wraps) for arrays of 2^31 blocks or more: the tag does not fit in 32 bits.")
claim("C63","partial",["Verif.Zfp.elements1","Verif.Zfp.elements2","Verif.Zfp.elements3","Verif.Zfp.array2_elements","Verif.Zfp.array3_elements","Verif.Zfp.iterator2","Verif.Zfp.iterator3","Verif.Zfp.pointer2","Verif.Zfp.pointer2_wraps","Verif.Zfp.blocks_wrap"],"Sizes up to 2^32-4 per dimension and, for pointers, fewer than 2^32 elements; outside these the 32-bit index arithmetic wraps (pointer2_wraps, blocks_wrap). Views and 3-D pointers are not modelled.")

claim("C50","partial",["Verif.Util.name_ext_partial","Verif.Util.name_ext_plain","Verif.Util.name_ext_other","Verif.Util.names_differ","Verif.Util.rec_names_partial","Verif.Util.rec_names_differ_partial","Verif.Util.name_ext_cut","Verif.Util.name_ext_directory","Verif.Util.name_ext_overflow"],"Holds if the suffix occurs only at the end of the name. The first occurrence is replaced, not the last, so `run.sub/shot.su` becomes `run_rvz.su` (name_ext_cut); a name without suffix in a directory with a point is cut at that point (name_ext_directory); names close to 1024 characters overflow (name_ext_overflow).")

claim("C64","partial",["Verif.Fd.Ela.elastic_in_bounds_partial","Verif.Fd.Ela.elastic_out_of_bounds"],"proved for a PML at the left (all other sides arbitrary); without it the property is false: the shear loop runs over the range of the normal stresses and reads vz before the array (elastic_out_of_bounds)")
claim("C65","proved",["Verif.Fd.Ela.elastic_linear","Verif.Fd.Ela.elastic_rest","Verif.Fd.Ela.elastic_medium"],"elastic4 without source, exact arithmetic; the free-surface factor is read from an array (see Elastic4.lean)")
claim("C66","partial",["Verif.Fd.Ela.elastic_parSteps_eq_partial","Verif.Fd.Ela.elastic_parSteps_exists","Verif.Fd.Ela.elastic_wall_race"],"grids of at least 3 by 3 points; on a single row between rigid walls the loops race (elastic_wall_race); sources not modelled")
claim("C67","partial",["Verif.Fd.Ela.elastic_velocity","Verif.Fd.Ela.elastic_stress","Verif.Fd.Ela.elastic_shear_frozen"],"proved at all points the loops visit; the property is false in the last column and row of the shear stress without PML there: they are never updated (elastic_shear_frozen)")
claim("C68","proved",["Verif.Fd.Ela.elastic_free_top","Verif.Fd.Ela.elastic_free_right","Verif.Fd.Ela.elastic_free_bottom","Verif.Fd.Ela.elastic_free_left"],"flat surface; where two free sides meet the later one in the program decides; the mirror condition two rows away needs two rows between the surfaces")
claim("C69","partial",["Verif.Fft.Mayer.rc1_pow2_dft","Verif.Fft.Mayer.cr1_pow2_dft","Verif.Fft.Mayer.cr1_rc1_pow2","Verif.Fft.Mayer.rc1_cr1_pow2","Verif.Fft.Mayer.pow2_small_out_of_bounds","Verif.Fft.Mayer.rc1_pow2_large_wrong","Verif.Fft.Mayer.rc1_pow2_huge_out_of_bounds"],"proved for n = 4 ... 131072 with exact arithmetic and one thread; the property is false for n = 1, 2 (pow2_small_out_of_bounds) and from n = 262144 on (rc1_pow2_large_wrong, rc1_pow2_huge_out_of_bounds)")
claim("C70","proved",["Verif.Fd.Ela.elastic_taper_vx","Verif.Fd.Ela.elastic_taper_vz"],"elastic4 without source, exact arithmetic")
claim("C71","proved",["Verif.Fd.Ela.elastic_pml_vx","Verif.Fd.Ela.elastic_pml_vz","Verif.Fd.Ela.elastic_pml_normal","Verif.Fd.Ela.elastic_pml_shear"],"elastic4 without source, exact arithmetic; the coefficients of the PML are parameters")
claim("C72","partial",["Verif.Fd.Ela.elastic_wall_top","Verif.Fd.Ela.elastic_wall_bottom","Verif.Fd.Ela.elastic_wall_right","Verif.Fd.Ela.elastic_wall_left","Verif.Fd.Ela.elastic_bottom_wall_cuts","Verif.Fd.Ela.elastic_right_wall_cuts","Verif.Fd.Ela.elastic_bottom_wall_short"],"proved without taper or PML at the other sides; with them the property is false: the wall is not shifted with the model, so it cuts through the model (…_wall_cuts) and misses its last columns (elastic_bottom_wall_short)")

claim("C73","partial",["Verif.Fd.Acou.shoot_linear","Verif.Fd.Acou.shoot_silent","Verif.Fd.Acou.shoot_sum","Verif.Fd.Acou.shoot_single_partial","Verif.Fd.Acou.silent_source_matters"],"acoustic4, exact arithmetic; linearity and the sum over sources without restriction; that one of several sources acts like the same source alone is proved when no source is saved at a free surface (on a free surface it is false: a silent source takes its point out of the surface, silent_source_matters)")
claim("C74","proved",["Verif.Fd.Acou.shoot_delay","Verif.Fd.Acou.shoot_causal"],"acoustic4, exact arithmetic, amplitudes per step as given (the wavelet interpolation is C30)")
claim("C75","partial",["Verif.Fd.Acou.source_velocity","Verif.Fd.Acou.source_pressure","Verif.Fd.Acou.top_source_saved","Verif.Fd.Acou.free_surface_source","Verif.Fd.Acou.cleared_source_lost","Verif.Fd.Acou.bottom_source_lost"],"acoustic4, exact arithmetic; source types 1, 6, 7, 10, 12. False for monopoles on a free bottom or right side: they are wiped every step and generate no field at all (cleared_source_lost, bottom_source_lost)")
claim("C76","partial",["Verif.Fd.Acou.source_in_bounds_partial","Verif.Fd.Acou.plane_wave_out_of_bounds"],"proved when all sources are inside the model; a plane wave or source array that extends past the left edge on a free top reads and writes before the pressure array in every step (plane_wave_out_of_bounds)")
claim("C77","proved",["Verif.Fft.Pfa.pfamcc_dft","Verif.Fft.Pfa.pfacc_dft"],"exact arithmetic; all 240 lengths, all strides that keep the transforms apart (Lay)")
claim("C78","proved",["Verif.Fft.Pfa.pfarc_dft","Verif.Fft.Pfa.pfacr_dft","Verif.Fft.Pfa.pfacr_pfarc"],"exact arithmetic; result and input are different arrays")
claim("C79","proved",["Verif.Fft.Lib.cc1_fft_dft","Verif.Fft.Lib.ccm_fft_dft","Verif.Fft.Lib.cc1_fft_roundtrip"],"exact arithmetic, one thread (two threads: C09)")
claim("C80","partial",["Verif.Fft.Lib.rc1_fft_dft","Verif.Fft.Lib.cr1_fft_dft","Verif.Fft.Lib.cr1_rc1_fft"],"exact arithmetic, one thread; forward for all lengths but the powers of two 1, 2 and above 2^17 (FwdLen), inverse in addition not for even lengths without fast algorithm (InvLen), where it is wrong: C69 pow2_small_out_of_bounds, rc1_pow2_large_wrong, C10 crdft_rcdft_even_wrong")
claim("C81","partial",["Verif.Fft.Pfa.pfa2rc_dft","Verif.Fft.Pfa.pfa2cr_dft","Verif.Fft.Lib.rcm_fft_dft_partial","Verif.Fft.Lib.crm_fft_dft_partial","Verif.Fft.Lib.crm_rcm_fft","Verif.Fft.Lib.rcm_fft_layout","Verif.Fft.Lib.rcm_fft_layout_wrong"],"proved when the half spectra are packed (ldc = n1/2+1, as all programs have it), or ldr differs from n1, or ldc from the number of traces; otherwise the fast branch stores them n1/2+1 apart instead of ldc (rcm_fft_layout_wrong)")
claim("C82","proved",["Verif.Fft.Lib.optncr_invLen","Verif.Fft.Lib.padded_roundtrip"],"exact arithmetic, one thread; up to 16384 samples (above that the recommended length can be too short: C05)")
claim("C83","proved",["Verif.Fft.Lib.xt2wx_spec","Verif.Fft.Lib.wx2xt_spec","Verif.Fft.Lib.wx2xt_xt2wx"],"exact arithmetic, one thread; lengths with a working inverse (InvLen, C80)")
claim("C84","proved",["Verif.Fft.Lib.xt2wkx_spec","Verif.Fft.Lib.wkx2xt_spec","Verif.Fft.Lib.wkx2xt_xt2wkx"],"exact arithmetic, one thread; lengths with a working inverse (InvLen, C80); samples between the traces are scaled too, as the theorem says")
claim("C85","partial",["Verif.Fft.Lib.cc2dfft_spec","Verif.Fft.Lib.cc2dfft_roundtrip","Verif.Fft.Lib.rc2dfft_spec_partial","Verif.Fft.Lib.cr2dfft_spec_partial","Verif.Fft.Lib.cr2dfft_rc2dfft"],"complex: all sizes; real: the layouts and lengths of C80 and C81")
claim("C86","proved",["Verif.Fft.Lib.yxt2wkykx_spec","Verif.Fft.Lib.wkykx2yxt_spec","Verif.Fft.Lib.wkykx2yxt_yxt2wkykx"],"exact arithmetic, one thread; lengths with a working inverse (InvLen, C80); the branch without MKL")

claim("C87","proved",["Verif.Conv.convol_spec","Verif.Conv.convol_wrap","Verif.Conv.convol_linear","Verif.Conv.convol_not_linear"],"exact arithmetic, one thread; convol_not_linear shows the wrap-around with two unit samples at the end of unpadded traces")
claim("C88","partial",["Verif.Conv.corr_spec","Verif.Conv.corr_lags","Verif.Conv.power_spec","Verif.Conv.corr3_spec","Verif.Conv.corr3_wrong"],"cor1, cor2 and pow as stated; false for cor3: it lacks the conjugate and gives the symmetric part of the convolution (corr3_spec, corr3_wrong)")
claim("C89","partial",["Verif.Conv.deconv_spec","Verif.Conv.convol_deconv","Verif.Conv.deconv_divides_by_zero"],"proved when no stabilised denominator is zero; with eps=reps=0 and a zero in the spectrum it divides by zero (deconv_divides_by_zero)")
claim("C90","partial",["Verif.Conv.cohr_spec_partial","Verif.Conv.cohr_uninitialised"],"proved when no amplitude product equals epsmax times the maximum; at such a tie the value of an uninitialised variable is used (cohr_uninitialised)")

claim("C91","partial",["Verif.Conv.fconv_gathers","Verif.Conv.fconv_convolution","Verif.Conv.convTrace_linear","Verif.Conv.fconv_correlation","Verif.Conv.fconv_ntfft_partial","Verif.Conv.ntfft_overflows","Verif.Conv.ntfft_forgotten","Verif.Conv.later_gather_overflows","Verif.Conv.repeated_trace_lost"],"proved without ntfft when no gather exceeds the buffers and no gather after the end of the second file needs more traces than the buffer holds (Files); with ntfft for a single gather. False otherwise: ntfft above ntmax leaves an array (ntfft_overflows), later gathers ignore ntfft (ntfft_forgotten), a later gather larger than the first overflows the read buffer (later_gather_overflows), the single trace of the second file is not repeated for the traces a later gather has more (repeated_trace_lost)")
claim("C92","partial",["Verif.Conv.auto_gathers_partial","Verif.Conv.auto_correlation_partial","Verif.Conv.auto_extra_traces"],"proved for gathers of equal size; a later gather with fewer traces is written with as many traces as the first (auto_extra_traces)")

claim("C93","proved",["Verif.Med.medium_acoustic","Verif.Med.moving_surface"],"exact arithmetic; positive densities")
claim("C94","partial",["Verif.Med.medium_elastic_partial","Verif.Med.pml_roz_shifted","Verif.Med.pml_roz_example","Verif.Med.shear_wrong_density"],"proved for lambda+2mu, lambda, rox, and roz without PML; the property is false for roz with PML at the left or bottom: the first column and last row of the model are overwritten by their neighbours (pml_roz_shifted, pml_roz_example), and for the shear modulus where the density varies laterally: the moduli of the right-hand points are made with the density of the left-hand ones (shear_wrong_density)")
claim("C95","proved",["Verif.Med.homogeneous","Verif.Med.shear_fluid"],"exact arithmetic")
claim("C96","proved",["Verif.Med.Visco.qp_reached","Verif.Med.Visco.qs_reached","Verif.Med.Visco.qs_ok","Verif.Med.Visco.dissipative"],"real arithmetic; for shear where the formula does not divide by zero, which Qs >= Qp guarantees (qs_ok)")
claim("C97","partial",["Verif.Med.Relax.va_relaxation_partial","Verif.Med.Relax.va_many","Verif.Med.Relax.modulus_multiplied","Verif.Med.Relax.two_frequencies","Verif.Med.Relax.ve_relaxation","Verif.Med.Relax.ve_lossless_partial"],"exact arithmetic, at one grid point with the differences of the velocities given; one reference frequency. With several the acoustic modulus is multiplied by their number (modulus_multiplied, two_frequencies). Without attenuation the visco-elastic step is the elastic one where lam = l2m - 2*muu, which holds in homogeneous parts of the model (the muu array is shifted by half a cell)")
claim("C98","partial",["Verif.Med.Relax.relax_stored","Verif.Med.Relax.relax_overflow","Verif.Med.Relax.shear_uninitialised","Verif.Med.Relax.shear_last_column"],"storage proved for the visco-acoustic scheme; with the visco-elastic scheme and several reference frequencies the arrays are left (relax_overflow); the last row of the shear stress is updated with values that were never set (shear_uninitialised) and the last column not at all (shear_last_column)")

claim("C99","partial",["Verif.Med.Info.info_max","Verif.Med.Info.info_min","Verif.Med.Info.info_min_nonzero_partial","Verif.Med.Info.info_min_zero","Verif.Med.Info.courant_everywhere","Verif.Med.Info.wavelength_everywhere_partial","Verif.Med.Info.air_column_refused","Verif.Med.Info.slow_shear_accepted"],"real arithmetic. The Courant number and the maximum are proved for every file; the smallest non-zero value and the wavelength only if the first trace is not all zero: otherwise zero is reported (info_min_zero), an acoustic model with air in its first trace is refused (air_column_refused) and slow shear waves behind a fluid column pass unnoticed (slow_shear_accepted)")
claim("C100","partial",["Verif.Stab.accepted_stable16","Verif.Stab.accepted_stable2_partial","Verif.Stab.stable4_partial","Verif.Stab.stable6_partial","Verif.Stab.stable_constant_density","Verif.Stab.stable_order2","Verif.Stab.unstable_homogeneous","Verif.Stab.unstable4","Verif.Stab.unstable6","Verif.Stab.accepted_unstable","Verif.Stab.stable_contrast","Verif.Stab.unstable_grain","Verif.Stab.no_time_step","Verif.Stab.accepted_unstable_density"],"real arithmetic, kernels without taper, PML, rigid walls and mirrored top, no source. Order 16: proved for constant density. Order 2: proved for all models strictly below the limit (the check admits equality). Orders 4 and 6: the property is false, the limit 0.606 of the check is above that of the coefficients (0.6033 and 0.5695): accepted runs exist in which arbitrarily small fields grow beyond every bound (accepted_unstable); below the true limit they are stable for constant density. With varying density orders 4, 6 and 16 are stable if the Courant number is small enough for the density contrast (stable_contrast), and for every time step there is a density model on which they are not (no_time_step); order 16 with contrast 1000 is accepted and unstable (accepted_unstable_density)")
claim("C101","partial",["Verif.Stab.Order2.inside","Verif.Stab.Order2.columns_missed","Verif.Stab.Order2.tall_outside","Verif.Stab.Order2.outside"],"the property is false: the columns are taken from the range of the rows. The update is proved for the columns ioZz..ieZz-1 (inside); without borders the first column and all columns beyond nz never move vertically (columns_missed), and models with two rows more than columns are updated outside the arrays (tall_outside)")

claim("C102","partial",["Verif.Med.Files.files_read","Verif.Med.Files.zero_density_stops","Verif.Med.Files.short_file_undefined"],"all files have the same number of samples per trace. Proved for density and S velocity files with at least as many traces as the velocity file; with fewer the program only warns and uses values that were never set (short_file_undefined)")

claim("C103","partial",["Verif.Toep.toeplitz_solves","Verif.Toep.toeplitz_definite","Verif.Toep.toeplitz_stop","Verif.Toep.toeplitz_one","Verif.Toep.toeplitz_breaks_down","Verif.Toep.toeplitz_not_row"],"exact arithmetic. The coefficients are the first column; the comment in the source says first row (toeplitz_not_row). A regular system with a singular leading block is not solved (toeplitz_breaks_down), one equation reads beyond the coefficients (toeplitz_one)")
claim("C104","partial",["Verif.Extrap.shortoper_best","Verif.Extrap.wlsq_best","Verif.Extrap.trunc1D_best","Verif.Extrap.shortoper_undefined","Verif.Extrap.trunc1D_even"],"exact arithmetic, filter=0. Proved for odd operator lengths from 3 and an even number of wavenumbers; with an odd number (which opercalc can choose) or a band beyond the Nyquist wavenumber weights that were never set are used (shortoper_undefined); an even operator length writes beyond the result (trunc1D_even)")
claim("C105","partial",["Verif.Extrap.weightfunct_band","Verif.Extrap.weightfunct_exact","Verif.Extrap.weightfunct_odd","Verif.Extrap.weightfunct_outside","Verif.Extrap.weightfunct_unset"],"exact arithmetic. Proved for an even number of wavenumbers and a band that reaches between the Nyquist wavenumbers; otherwise weights stay unset or memory before the array is written (weightfunct_odd, weightfunct_unset, weightfunct_outside)")

claim("C106","proved",["Verif.Extrap.kwExtr_bounded","Verif.Extrap.taper_bounds"],"exact arithmetic; the loop over frequencies, with the data already on the model grid")
claim("C107","partial",["Verif.Extrap.kwExtr_exact","Verif.Extrap.kwField_energy","Verif.Extrap.kwField_zero","Verif.Extrap.kwExtr_leak","Verif.Extrap.kwExtr_nyquist"],"exact arithmetic. Proved without padding and taper, where the number of wavenumbers is odd or no wave of the Nyquist wavenumber propagates. False otherwise: padded samples keep the field of the frequency before (kwExtr_leak), and a propagating wave of the Nyquist wavenumber is shifted twice (kwExtr_nyquist). Evanescent waves are kept without attenuation (kwField_energy)")

claim("C108","proved",["Verif.Extrap.forwExtr_exact","Verif.Extrap.phaseShift_modulus"],"exact arithmetic")
claim("C109","proved",["Verif.Extrap.spline3_interpolates","Verif.Extrap.spline3_unset"],"exact arithmetic. For two equal points nothing is computed and the old coefficients stay (spline3_unset)")
claim("C110","partial",["Verif.Extrap.forwExtrSmooth_exact","Verif.Extrap.forwExtrSmooth_zero","Verif.Extrap.forwExtrSmooth_symmetric","Verif.Extrap.edge_slope","Verif.Extrap.cwrap_odd"],"exact arithmetic; even numbers of wavenumbers. False for odd ones, which opercalc accepts: the final rotation is one sample off, so the element of wavenumber zero gets the value of wavenumber number one (cwrap_odd).")

claim("C111","proved",["Verif.Ray.vidale_all","Verif.Ray.vidale_near"],"exact arithmetic. Source boxes of zero points are outside the theorem")
claim("C112","proved",["Verif.Ray.vidale_scaled"],"exact arithmetic")
claim("C113","proved",["Verif.Ray.rmHead_top","Verif.Ray.rmHead_below","Verif.Ray.rmHead_above","Verif.Ray.rmHead_values"],"For a source in the top row nothing is changed")
claim("C114","partial",["Verif.Ray.cpAverage_partial","Verif.Ray.cpAverage_constant","Verif.Ray.cpAverage_next","Verif.Ray.fdReceiver_ok"],"The points are on the grid and the amplitude is positive. False for the value: the sum of nr velocities is divided by nr-1, so the mean in a constant model is larger than its velocity (cpAverage_constant), and for a receiver next to the source the division is by zero (cpAverage_next).")

claim("C115","proved",["Verif.Recv.recvPar_count"],"exact arithmetic")
claim("C116","partial",["Verif.Recv.recvPar_lines","Verif.Recv.recvPar_lines_dx","Verif.Recv.recvPar_default","Verif.Recv.wanted_grid","Verif.Recv.vertical_slants","Verif.Recv.horizontal_overshoots","Verif.Recv.point_refused","Verif.Recv.negative_dx","Verif.Recv.too_many_dx","Verif.Recv.shared_spacing_unset"],"Proved for lines with dxrcv and dzrcv for each line, with one dxrcv or with none. False otherwise: a vertical line with dzrcv only slants by one column per receiver (vertical_slants); a spacing that does not fit can put the last receiver outside the grid (horizontal_overshoots); a line of one point is refused (point_refused); a negative dxrcv, more values than lines, and one dxrcv with one dzrcv for several lines use memory that is not theirs or not set (negative_dx, too_many_dx, shared_spacing_unset).")
claim("C117","proved",["Verif.Recv.recvPar_nearest","Verif.Recv.recvPar_points","Verif.Recv.array_not_clipped"],"exact arithmetic. Receivers of coordinate arrays are not kept on the grid (array_not_clipped).")

claim("C118","proved",["Verif.Snap.shotSnaps_mem","Verif.Snap.shotSnaps_sorted","Verif.Snap.shotSnaps_all","Verif.Snap.file_all","Verif.Snap.snaPar_times","Verif.Snap.snap_time_error"],"exact arithmetic; the distance to the asked time grows with the number of the snapshot (snap_time_error).")
claim("C119","partial",["Verif.Snap.snaPar_range","Verif.Snap.snapshot_values_partial","Verif.Snap.snapshot_wrong_column","Verif.Snap.withbnd_values","Verif.Snap.withbnd_same_position","Verif.Snap.withbnd_vz_out","Verif.Snap.withbnd_vx_out"],"The range is as asked. The samples are those of the column after the one in the header (snapshot_values_partial, snapshot_wrong_column). With borders the samples are complete when no shifted row is used, but all headers have the same position with an absorbing left side (withbnd_same_position) and elements outside the arrays are read (withbnd_vz_out, withbnd_vx_out).")
claim("C120","partial",["Verif.Snap.beam_values_partial","Verif.Snap.beam_values","Verif.Snap.beam_position_wrong"],"Holds without absorbing left and top sides (beam_values). With them the field is taken npml columns and rows before the point (beam_values_partial). With skipdx > 1 the header positions are wrong (beam_position_wrong).")

claim("C121","proved",["Verif.Vir.gathers_sorted","Verif.Vir.gathers_overflow"],"With more receivers or sources than given the arrays are overrun (gathers_overflow); integers are unbounded.")
claim("C122","partial",["Verif.Vir.nearest_spec","Verif.Vir.nearest_exact","Verif.Vir.tolerance_ignored","Verif.Vir.tolerance_squared","Verif.Vir.scalco_zero"],"The nearest receiver is used (nearest_spec). A request outside the tolerance is used as well (tolerance_ignored), the tolerance is compared with the square of the distance (tolerance_squared), and with scalco=0 the first receiver is always taken (scalco_zero).")
claim("C123","partial",["Verif.Vir.pairs_spec","Verif.Vir.readTrace_swap","Verif.Vir.select_square_partial","Verif.Vir.select_square_wrong","Verif.Vir.select_donut_all","Verif.Vir.select_quadrant_line","Verif.Vir.select_unknown"],"Each common source that passes the test of the code contributes once (pairs_spec). The test itself is not the documented one: select_square_wrong, select_donut_all, select_quadrant_line, select_unknown.")
claim("C124","proved",["Verif.Vir.corrvir_trace","Verif.Vir.virtualTrace_band","Verif.Vir.virtualTrace_stack","Verif.Vir.virtual_reciprocity","Verif.Vir.virtual_zero_lag","Verif.Vir.virtualTrace_few","Verif.Vir.virtualTrace_few_coherence","Verif.Vir.buffer_spec"],"Real arithmetic; 2*nt up to 16384; with fmax below the Nyquist frequency the stack is band-limited (virtualTrace_band). With cohr=1 and too few sources the program aborts (virtualTrace_few_coherence).")
claim("C125","partial",["Verif.Vir.read_together","Verif.Vir.read_race","Verif.Vir.write_perm","Verif.Vir.write_order","Verif.Vir.tracl_inj"],"Writing is right for all schedules (write_perm), reading would be with the critical section that is commented out (read_together); as it is, and nbm=0 is the default, a thread can get the trace of another one (read_race). The order in the file depends on the schedule (write_order), the number in the header restores it (tracl_inj).")

claim("C126","partial",["Verif.Basop.dispatch_documented_partial","Verif.Basop.dispatch_numbers","Verif.Basop.chain_named","Verif.Basop.dispatch_fits","Verif.Basop.dispatch_defects"],"The documented scaletraces overruns the array of ten characters and killof selects nothing (dispatch_defects).")
claim("C127","proved",["Verif.Basop.timeFilter_spec","Verif.Basop.timeFilter_sinusoid","Verif.Basop.jom_sine","Verif.Basop.timeFilter_inverse","Verif.Basop.timeShift_whole","Verif.Basop.timeShift_zero","Verif.Basop.timeShift_alternating"],"Real arithmetic; lengths the transform library takes; fmax up to the Nyquist frequency. With the default band the component at the Nyquist frequency is dropped (timeShift_zero).")
claim("C128","partial",["Verif.Basop.hilbertTrans_half_partial","Verif.Basop.hilbertTrans_cosine","Verif.Basop.envelope_partial","Verif.Basop.envelope_constant"],"hilb gives half the Hilbert transform (hilbertTrans_cosine); the envelope counts the mean and the Nyquist component twice (envelope_constant).")
claim("C129","partial",["Verif.Basop.conjugate_partial","Verif.Basop.conjugate_late"],"The trace comes out reversed but one sample later than the header says (conjugate_late).")
claim("C130","partial",["Verif.Basop.rma_spec","Verif.Basop.rmat_spec","Verif.Basop.timeRotate_spec","Verif.Basop.timeRotate_negative","Verif.Basop.nrotOf_ignored_partial","Verif.Basop.nrotOf_trot","Verif.Basop.shiftF1_val"],"The averages and the rotation itself are right (timeRotate_spec, for 0 to nsam samples); the given nrot is ignored and trot is truncated to whole seconds (nrotOf_ignored_partial, nrotOf_trot); a rotation to the left leaves the array (timeRotate_negative); the time in the header accumulates over the gathers (shiftF1_val).")
claim("C131","partial",["Verif.Basop.pad2d_flat","Verif.Basop.pad2d_good_partial","Verif.Basop.pad2d_misplaced","Verif.Basop.pad2d_uninitialised"],"Right only when the number of samples is not changed (pad2d_good_partial); otherwise traces are misplaced and part of the array keeps what was in the memory.")
claim("C132","partial",["Verif.Basop.killOffset_spec","Verif.Basop.killScan_numbers","Verif.Basop.killScan_empty","Verif.Basop.killTraces_spec","Verif.Basop.killTraces_shots","Verif.Basop.killTraces_shots_outside","Verif.Basop.killTraces_outside"],"Traces are counted from zero while shot numbers count from one. A last number without a separator is not read (killScan_numbers), an empty line kills trace 0 (killScan_empty), numbers are not checked (killTraces_outside, killTraces_shots_outside).")

claim("C133","partial",["Verif.Su.cut_exists","Verif.Su.readData_spec","Verif.Su.readData_truncated","Verif.Su.readData_overrun","Verif.Su.readData_pipe"],"Holds on files when the gather fits in the arrays; the number of traces is not checked (readData_overrun) and on a pipe the first header of the next gather is lost, since the step back fails unnoticed (readData_pipe).")
claim("C134","partial",["Verif.Su.filter_spec_partial","Verif.Su.fileInfo_spec","Verif.Su.filter_larger_gather","Verif.Su.filter_pipe_one","Verif.Su.filter_pipe_two"],"Holds when no gather is larger than the first one or large enough sizes are given (filter_spec_partial); otherwise the arrays are overrun (filter_larger_gather), and from a pipe only files with one gather work.")
claim("C135","partial",["Verif.Smooth.odd_spec","Verif.Smooth.rSmooth_spec","Verif.Smooth.rSmooth_plain","Verif.Smooth.rSmooth_bounds","Verif.Smooth.rSmooth_constant","Verif.Smooth.pw_inverse","Verif.Smooth.pw_sign","Verif.Smooth.rSmooth_one"],"Proved in full for real arithmetic, except that a power other than one loses the sign of negative data (pw_sign).")

claim("C136","partial",["Verif.Fd.Out.run_files_partial","Verif.Fd.Out.expected_numbered","Verif.Fd.Out.header_positions","Verif.Fd.Out.expected_ns","Verif.Fd.Out.run_split","Verif.Fd.Out.expected_gathers"],"Proved when the record of a shot fits in one file (run_files_partial); when it is split over several files the arrays are overrun (run_split), and the header word for the number of samples is wrong from 65536 samples (expected_ns).  Not modelled: separation in up and down going fields, several processes, negative start times.")

claim("C137","partial",["Verif.Fd.Wav.wavelet_played_partial","Verif.Fd.Wav.band_sample","Verif.Fd.Wav.plays_exists","Verif.Fd.Wav.plays_unique","Verif.Fd.Wav.wavelet_plain","Verif.Fd.Wav.wavelet_alternates","Verif.Fd.Wav.wavelet_silent_wrong"],"Proved for wavelets with nothing at the Nyquist frequency and lengths with a fast transform; for even lengths after interpolation without one, a value that does not depend on the wavelet is subtracted from every second sample (wavelet_alternates, wavelet_silent_wrong).")
claim("C138","partial",["Verif.Fd.Wav.resample_steps","Verif.Fd.Wav.resample_compressed","Verif.Fd.Wav.resample_stretched","Verif.Fd.Wav.cutSmall_near","Verif.Fd.Wav.cutSmall_silenced","Verif.Fd.Wav.cutSmall_last_silent"],"The time scale is right exactly when the step of the wavelet is a multiple of that of the modelling (resample_steps); otherwise it is compressed or stretched.  The small samples of all wavelets are judged by the last one (cutSmall_silenced).")

claim("C139","partial",["Verif.PadMod.padmodel_partial","Verif.PadMod.padmodel_edges","Verif.PadMod.padmodel_value","Verif.PadMod.padmodel_bottom_lost","Verif.PadMod.padmodel_value_misplaced","Verif.PadMod.origin_kept"],"True without padding in depth.  With it, the deepest samples of the model are lost (padmodel_bottom_lost), and with a value the padding above the model is zero (padmodel_value_misplaced).")
claim("C140","partial",["Verif.PadMod.truncate_spec","Verif.PadMod.truncate_last","Verif.PadMod.truncate_first_refused"],"True for depths between the first and last sample; one sample beyond the last is accepted and memory outside the data is read, the first sample is refused.")

claim("C141","partial",["Verif.FreqWave.freqwave_peak","Verif.FreqWave.freqwave_scaled","Verif.FreqWave.freqwave_unscaled","Verif.FreqWave.freqwave_g1","Verif.FreqWave.gauss_positive","Verif.FreqWave.tpeak_shift","Verif.FreqWave.tpeak_plain","Verif.FreqWave.kind_chosen","Verif.FreqWave.kind_names"],"Proved for kinds without phase and peaks at a sample, up to 16384 samples; the derivative of a Gaussian is zero at t0 (freqwave_g1); if all samples are negative the smallest becomes scale (freqwave_scaled).  Not modelled: cs, inverse=2, shift of fw.")
claim("C142","partial",["Verif.FreqWave.shape_peak","Verif.FreqWave.shape_peak_g0","Verif.FreqWave.peak_attenuated","Verif.FreqWave.sqrtg2_ratio","Verif.FreqWave.sqrtg2_not_attenuated","Verif.FreqWave.invert_spec"],"True for g0, g1 and g2; sqrtg2 reaches half of the dB asked for.")
claim("C143","partial",["Verif.FreqWave.freqwave_peak","Verif.FreqWave.freqwave_unscaled","Verif.FreqWave.mon_ub","Verif.FreqWave.mon_default_ub","Verif.FreqWave.mon_above_ub","Verif.FreqWave.fw_ub"],"Frequencies within the band never give an access outside the arrays (freqwave_unscaled); w=mon without fp writes before the spectrum, at one frequency above it behind, and w=fw with fp and fmax above the Nyquist frequency behind it.")

claim("C144","partial",["Verif.Prim.primaries_each","Verif.Prim.primaries_reuse_partial","Verif.Prim.reuse_fixed","Verif.Prim.reuse_actual","Verif.Prim.primaries_reuse_wrong","Verif.Prim.primaries_reuse_ub","Verif.Prim.early_abrupt","Verif.Prim.early_keeps"],"True with niterskip=1.  With reuse it holds when the last samples of the padded traces are zero; otherwise the data enters forward in time (reuse_actual, primaries_reuse_wrong), and samples up to shift make the program write outside an array (primaries_reuse_ub).  The taper at the end of the causal window acts on zeros (early_abrupt).  Not modelled: plane waves, several focal points.")
claim("C145","partial",["Verif.Prim.update_complement","Verif.Prim.update_counted_twice"],"True with niterskip=1 or niterec of 2 or 3; with 4 or more the removed part is counted several times.")
claim("C146","partial",["Verif.Prim.split_min","Verif.Prim.taper_sum","Verif.Prim.vmin_ub"],"True from shift on, for samples not before shift; before that the program writes in front of the array (T=0).")

claim("C147","partial",["Verif.Picks.tinv_picks","Verif.Picks.fmute_picks","Verif.Picks.Tracked.smooth","Verif.Picks.Tracked.drift","Verif.Picks.tinv_picks_ub","Verif.Picks.fmute_itb_ignored"],"Proved while hw times the number of traces is at most the length of a trace; on traces without signal the picks run away by hw per trace (Tracked.drift).  A source in front of the first trace makes readTinvData read before the data (tinv_picks_ub); itb is ignored when the largest sample near it is at itb (fmute_itb_ignored).")
claim("C148","partial",["Verif.Picks.fmute_each","Verif.Picks.fmute_file_ub","Verif.Picks.fmute_wider_ub"],"True without file_mute for gathers not wider than the first; with file_mute the program reads from a closed file after the first gather.")

claim("C149","partial",["Verif.Mdd.correlation_partial","Verif.Mdd.pass_through","Verif.Mdd.corr_more_stop","Verif.Mdd.fewer_traces_fails","Verif.Mdd.more_traces_mixed"],"Proved for the same number of traces per shot in both files (and square data where conjgA transposes A or conjgB=0 does not transpose B).  With fewer traces in A no run succeeds, with more BLAS stops it (mdd=0) or frequencies overwrite each other (mdd=1).")
claim("C150","partial",["Verif.Mdd.mdd1_normal_partial","Verif.Mdd.mdd1_actual","Verif.Mdd.mdd2_solves_partial","Verif.Mdd.mdd2_shots_ub","Verif.Mdd.conjgA_wrong"],"Proved for the default conjgA=0, conjgB=1 and equal numbers of traces; mdd1_actual says what other options compute: conjgA is applied a second time to the product (conjgA_wrong).  mdd=2 overruns its scratch matrix when there are more shots than traces.")
claim("C151","partial",["Verif.Mdd.transmission_actual","Verif.Mdd.transmission_sign","Verif.Mdd.transmission_even"],"False: the sign is chosen by k_iter, not by the term.  The theorem gives what is computed for all sizes and k_iter.")
claim("C152","partial",["Verif.Mdd.lsqr_adjoint","Verif.Mdd.aprod1_adds","Verif.Mdd.aprod2_overwrites","Verif.Mdd.lsqr_step_wrong"],"The operators are adjoint and Aprod1 meets its contract; Aprod2 clears x first and therefore never meets it.")
claim("C153","partial",["Verif.Mdd.cholesky_inverse","Verif.Mdd.lu_inverse","Verif.Mdd.svd_penrose","Verif.Mdd.svd_inverse","Verif.Mdd.mdd_least_squares_partial"],"LAPACK's routines enter by their contracts; exact arithmetic.  mdd_least_squares_partial is for equal numbers of traces, default conjgA/conjgB, rthm=0.  rthm=6 (documented as not working) is not modelled.")

claim("C154","proved",["Verif.Mute.plane_theta_window"],"For mute times within one trace length of time zero and a window with room for its tapers.")
claim("C155","proved",["Verif.Mute.plane_odd_reverses_even","Verif.Mute.tshift_is_plane"],"Window 1 (Theta); also where the tapers overlap.")
claim("C156","partial",["Verif.Mute.plane_theta_psi_partial","Verif.Mute.plane_theta_psi_lose","Verif.Mute.plane_one_sided_complementary"],"False with a taper: around the negative end the two tapers lie on different sides of the cut and 2*smooth samples are attenuated (plane_theta_psi_lose).  True elsewhere, and for the one-sided windows 11/44.")

claim("C157","proved",["Verif.Rtm.rtm_conventional"],"For all wavefields given per step; the wave propagation that makes them is the subject of other claims.")
claim("C158","partial",["Verif.Rtm.poynting_image_partial","Verif.Rtm.poynting_shift","Verif.Rtm.poynting_orient_opposite","Verif.Rtm.decomposition_zero"],"The image is proved exactly as the program makes it; it is not the stated one: the source flux uses the velocities of the next grid point (poynting_shift), the two orientations use opposite signs (poynting_orient_opposite), mode 3 gives zero (decomposition_zero).")
claim("C159","proved",["Verif.Rtm.axis_points","Verif.Rtm.image_on_model","Verif.Rtm.axis_zero"],"Integer division by zero for spatial steps below half the grid step (axis_zero).")
claim("C160","partial",["Verif.Rtm.hilbert_updown","Verif.Rtm.conventional_cosines","Verif.Rtm.hilbert_leftright_overrun","Verif.Rtm.hilbert_leftright_flat"],"Up-down proved for sums of waves below Nyquist without taper; left-right is false: the row arrays are read at the depth index (hilbert_leftright_overrun, hilbert_leftright_flat).")
claim("C161","partial",["Verif.Rtm.plane_aligned_partial","Verif.Rtm.plane_misaligned","Verif.Rtm.plane_mute_overrun"],"True iff the image step is the modelling step or does not divide the number of steps; the muting overruns for every even number of snapshots.")

claim("C162","partial",["Verif.Vmar.vmar_up","Verif.Vmar.vmar_down","Verif.Vmar.vmar_series_partial"],"Square geometry, exact arithmetic; needs the traces left over in the work array to have no energy outside the frequency band (see C164).")
claim("C163","partial",["Verif.Vmar.green_plus_partial","Verif.Vmar.green_plus_stale","Verif.Vmar.green_plus_wrong","Verif.Vmar.green_plus_single"],"True for the second half of the samples and for the single-shot version; in the first half the focusing function of before the update is used (green_plus_stale, green_plus_wrong).")
claim("C164","partial",["Verif.Vmar.threads_partial","Verif.Vmar.threads_matter"],"False in general: frequencies outside the band come from the last trace the thread transformed (threads_matter).")
claim("C165","partial",["Verif.Vmar.single_bounds","Verif.Vmar.single_mixes"],"True exactly if there are at most as many shots as stations.")

claim("C166","partial",["Verif.M3D.line_complete_partial","Verif.M3D.raster_complete_partial","Verif.M3D.pos_nearest","Verif.M3D.position_lost","Verif.M3D.position_repeated","Verif.M3D.positions_overflow"],"Complete for lines and rasters in order; lost, repeated or too many positions otherwise (position_lost, position_repeated, positions_overflow).")
claim("C167","proved",["Verif.M3D.synthesis3D_integral"],"For receivers and sources on the grid of the operators; others are read outside the arrays.")
claim("C168","partial",["Verif.M3D.theta3D_partial","Verif.M3D.theta3D_leak","Verif.M3D.theta3D_late","Verif.M3D.psi3D_partial","Verif.M3D.oneSided3D","Verif.M3D.band3D"],"True for above=1,-1,2; the windows 0, -2 and 4 leave one or two samples of the muted zone at full value (theta3D_leak, psi3D_partial).")
claim("C169","proved",["Verif.M3D.imaging_spec"],"3 to 16384 samples; the static tables of the transforms are those of one thread.")
claim("C170","partial",["Verif.M3D.cost_partial","Verif.M3D.cost_lost_update"],"One focal point; with more the shared sum loses updates (cost_lost_update).")
claim("C171","partial",["Verif.M3D.ampEst_partial","Verif.M3D.ampEst_value","Verif.M3D.ampEst_accumulates"],"True with a wavelet file or for one focal point; otherwise the energies of all earlier focal points are included (ampEst_value, ampEst_accumulates).")
claim("C172","partial",["Verif.M3D.amp_applied","Verif.M3D.amp_green_partial","Verif.M3D.amp_green_wrong"],"True for the focusing functions; the Green's function only for one line or one focal point (amp_green_wrong).")
claim("C173","partial",["Verif.M3D.scale_partial","Verif.M3D.scale_off","Verif.M3D.scale_quiet","Verif.M3D.scale_one_iteration"],"Needs verbose, two iterations, two factors, none zero; without verbose the step is never set (scale_quiet), with one iteration the factor is not (scale_one_iteration).")

claim("C174","partial",["Verif.Fd3.sweeps_in_bounds","Verif.Fd3.step_in_bounds"],"The sweeps for all settings, the whole step for sides without taper, PML or rigid wall; those parts of boundaries3D.c are not modelled.")
claim("C175","partial",["Verif.Fd3.velocity_update","Verif.Fd3.pressure_update","Verif.Fd3.step_spec"],"The sweeps for all settings, the whole step for sides without taper, PML or rigid wall; sources are not modelled.")
claim("C176","partial",["Verif.Fd3.sweeps_schedule","Verif.Fd3.step_schedule_partial","Verif.Fd3.step_schedule_barrier","Verif.Fd3.free_surface_race"],"True when the top is not free, or with a barrier; with a free top and no taper the pressure sweep reads vz while other threads mirror it (free_surface_race).")
claim("C177","partial",["Verif.Fd3.step_linear"],"Sides without taper, PML or rigid wall; exact arithmetic.")

claim("C178","proved",["Verif.Fd3.El.elastic_in_bounds"],"The loops over the grid; sources and boundary conditions are not part of the claim.")
claim("C179","partial",["Verif.Fd3.El.elastic_velocity_update","Verif.Fd3.El.elastic_stress_update","Verif.Fd3.El.elastic_grids","Verif.Fd3.El.elastic_linear"],"Exact arithmetic instead of float.")
claim("C180","proved",["Verif.Fd3.El.elastic_schedule"],"The loops over the grid; sources and boundary conditions are not part of the claim.")
claim("C181","partial",["Verif.Fd3.El.elastic_fluid"],"The loops over the grid, exact arithmetic.")

claim("C182","proved",["Verif.Snap.window_read","Verif.Snap.window_outside"],"The file has all its samples.")
claim("C183","proved",["Verif.Snap.reshape_exchanges","Verif.Snap.reshape_twice"],"")
claim("C184","partial",["Verif.Snap.header_twice","Verif.Snap.header_time","Verif.Snap.header_position_partial","Verif.Snap.header_position_metres"],"Positions keep their meaning only for scalco=-1000: violated otherwise.")
claim("C185","proved",["Verif.Snap.shots_transpose"],"")
claim("C186","partial",["Verif.Snap.names_one_digit_partial","Verif.Snap.names_more_digits","Verif.Snap.names_absent","Verif.Snap.names_wrong_digit"],"Holds when the first number has one digit; violated for two or more digits, for names without the number and when the digit occurs earlier in the name.")
claim("C187","partial",["Verif.Snap.Mute.centre_weights","Verif.Snap.Mute.centre_symmetric","Verif.Snap.Mute.centre_zone","Verif.Snap.Mute.centre_twice"],"Exact arithmetic; the centre of an even number of snapshots can get the taper twice.")
claim("C188","partial",["Verif.Snap.Mute.start_outside","Verif.Snap.Mute.start_clear_partial"],"Holds for smooth=0 only: with a taper the program reads before the array of the taper.")
claim("C189","proved",["Verif.Snap.Mute.topdet_first_max","Verif.Snap.Mute.farrdet_first"],"No NaN; the tolerance search answers 0 when nothing is above the tolerance.")
claim("C190","partial",["Verif.Snap.Mute.same_volume_refused","Verif.Snap.Mute.accepts_iff"],"Violated: the numbers of columns and lines of one file are exchanged.")

claim("C191","partial",["Verif.Em.em_in_bounds","Verif.Em.em_order_two"],"Holds for iorder of at least 4; iorder=2 always reads outside. Sources and boundary conditions are not part of the claim.")
claim("C192","partial",["Verif.Em.em_update","Verif.Em.em_schedule","Verif.Em.em_other_thread"],"Holds if each row is handled by one thread in the three loops (static schedule), which the code does not ask for; exact arithmetic; the loops over the grid only.")
claim("C193","partial",["Verif.Em.mu0_ten_times","Verif.Em.velocity_right"],"The velocity is right; the magnetic constant is ten times too large.")

claim("C194","partial",["Verif.Snap.combine_planes","Verif.Snap.combine_stacks_partial","Verif.Snap.combine_thick"],"What is written is proved for files of any thickness; it is the stack only for files one sample thick in the stacking direction. Thicker files overwrite each other and leave zeros.")
claim("C195","partial",["Verif.Snap.combine_name_partial","Verif.Snap.combine_name_more","Verif.Snap.combine_gx_partial","Verif.Snap.combine_gx_wrong"],"Names are right for a first number of one digit, positions for whole metres; otherwise wrong.")
claim("C196","partial",["Verif.Util.diamond_cells","Verif.Util.circle_cells","Verif.Util.square_cells","Verif.Util.diamond_circle_symmetric","Verif.Util.square_size","Verif.Util.square_one_empty"],"The cells are determined for the three kinds. Squares are not centred, odd widths are one point too small, and a square of width 1 is empty.")
claim("C197","partial",["Verif.Util.diffraction_point","Verif.Util.diffraction_edge","Verif.Util.ellipse_cells"],"Ellipses (without random perturbation) are right; diffractors only if they are inside the model, which is not checked.")
claim("C198","partial",["Verif.Util.Ext3.extend_shifts","Verif.Util.Ext3.extend_outside"],"Holds for interfaces on a sample of the model; others make the program leave its arrays.")
claim("C199","proved",["Verif.Util.Ext3.change_samples","Verif.Util.Ext3.change_twice"],"Samples; a file whose traces differ in length is misread (not modelled).")

claim("C200","partial",["Verif.Snap.induced_sum_partial","Verif.Snap.induced_even","Verif.Snap.induced_many_files"],"Holds for one thread, muting, an odd number of snapshots and at most as many files as traces; with an even number of snapshots, or more files, the program leaves its arrays.")
claim("C201","partial",["Verif.Snap.induced_no_overlap","Verif.Snap.induced_race"],"False: the shared sum is updated without synchronisation. Threads that do not overlap give the sum; a schedule that loses all files but one is proved for any number of files. Model of one element.")
claim("C202","partial",["Verif.Snap.R1D.response_right_partial","Verif.Snap.R1D.response_small_spacing","Verif.Snap.R1D.response_one_sided","Verif.Snap.R1D.response_factor","Verif.Snap.R1D.response_fraction"],"Holds for records centred at their source with a spacing of whole metres and all positions used; false otherwise.")

claim("C203","partial",["Verif.Util.Kxw.filter_gain_partial","Verif.Util.Kxw.filter_outside","Verif.Util.Kxw.filter_inside","Verif.Util.Kxw.filter_wide","Verif.Util.Kxw.filter_aliased"],"Holds for positive perc, and for negative perc below the spatial Nyquist; above it the taper is not limited and the program writes before its table. One frequency; the transforms are not modelled.")
claim("C204","partial",["Verif.Util.Info.info_traces","Verif.Util.Info.info_spacing_partial","Verif.Util.Info.info_spacing_square"],"The number of traces holds; a horizontal spacing that differs by 0.5% or more from the vertical one is replaced by it.")
claim("C205","partial",["Verif.Util.Hom.circle_even_partial","Verif.Util.Hom.circle_odd","Verif.Util.Hom.circle_long","Verif.Util.Hom.circle_mixed"],"Holds for even numbers of samples that fit; with odd numbers the middle sample is lost, and a longer wavelet for the deconvolution is mixed or written outside its array.")
claim("C206","proved",["Verif.Util.Hom.division_exact","Verif.Util.Hom.division_damped","Verif.Util.Hom.division_safe"],"Exact rationals; the transforms are not modelled.")

claim("C207","proved",["Verif.Em.Medium.medium_nearest"],"Reading of the files is not modelled.")
claim("C208","partial",["Verif.Em.Medium.wave_velocity","Verif.Em.Medium.constants_wrong"],"The velocity is right. The magnetic constant is ten times that of vacuum (10e-7 for 1e-7) and the electric one a tenth.")
claim("C209","partial",["Verif.Util.RecPos.receivers_line_partial","Verif.Util.RecPos.receivers_back","Verif.Util.RecPos.receivers_left","Verif.Util.RecPos.receivers_vertical"],"Holds for lines to the right in whole numbers of spacings; lines that turn back, go left or are vertical fail. lint=1, no random shifts.")

claim("C210","proved",["Verif.Util.Intf.interface_cells","Verif.Util.Intf.sinus_shape","Verif.Util.Intf.fract_bound"],"Exact real numbers.")
claim("C211","partial",["Verif.Util.Intf.rough_statistics","Verif.Util.Intf.rough_set","Verif.Util.Intf.rough_unset","Verif.Util.Intf.rough_unweighted"],"The statistics hold over the length of the transform. One element of the spectrum is not set, and the negative wavenumbers are not weighted. Transforms not modelled.")

claim("C212","partial",["Verif.Util.Log.log_safe","Verif.Util.Log.log_line_partial","Verif.Util.Log.log_thin","Verif.Util.Log.log_one"],"Holds for logs from the surface with lines at least one sample apart; closer lines are followed one per sample. Memory is safe for two lines or more, not for one.")
claim("C213","partial",["Verif.Util.Log.mat2su_gathers_partial","Verif.Util.Log.mat2su_short"],"Holds for files of whole gathers; a last gather that is not whole is completed with numbers of the one before it.")

claim("C214","partial",["Verif.Fd3.Place.place_nodes_partial","Verif.Fd3.Place.place_when","Verif.Fd3.Place.place_front_only","Verif.Fd3.Place.place_back_only","Verif.Fd3.Place.place_outside","Verif.Fd3.Place.place_left_out","Verif.Fd3.Place.place_diagonal"],"Holds when front and back have the same type; with a taper on one of them only, sources and receivers are displaced by the length of the layer. A source one node after the model is not left out. Pressure grid.")
claim("C215","proved",["Verif.Fd3.Place.amplitude_linear","Verif.Fd3.Place.amplitude_silent"],"Exact rationals; one source.")

claim("C216","partial",["Verif.Fd3.Tri.recP_linear", "Verif.Fd3.Tri.recP_sampled", "Verif.Fd3.Tri.recP_node", "Verif.Fd3.Tri.recP_between", "Verif.Fd3.Tri.recV_node_partial", "Verif.Fd3.Tri.recV_half", "Verif.Fd3.Tri.recPP_linear", "Verif.Fd3.Tri.recPP_cubic_partial", "Verif.Fd3.Tri.recPP_wrong", "Verif.Fd3.Tri.recVx_ignores", "Verif.Fd3.Tri.recVx_node", "Verif.Fd3.Tri.recVx_wrong"],"Holds for pressure and the stresses. The recorded vx is read from the array of vy, so it does not depend on vx (recVx_ignores, recVx_wrong); vz and vy are those half a grid point past the receiver (recV_half); the divergence is right only if the three spacings are equal (recPP_linear, recPP_wrong). The curl is not modelled.")

claim("C217","partial",["Verif.Fd3.Direct.recP_z","Verif.Fd3.Direct.recP_x_partial","Verif.Fd3.Direct.recP_x_error","Verif.Fd3.Direct.recVz_p","Verif.Fd3.Direct.recVx_p_partial","Verif.Fd3.Direct.recVx_error","Verif.Fd3.Direct.recVx_wrong","Verif.Fd3.Direct.rec_plain","Verif.Fd3.Direct.record_vy","Verif.Fd3.Direct.record_rest"],"Holds for pressure towards vz and for vz towards pressure. Pressure towards vx uses the medium of one node for both (recP_x_error); vx towards pressure reads one value from the first plane of the array (recVx_error, recVx_wrong); vy is never recorded (record_vy). int=1 of the velocities, stresses, divergence and curl not modelled.")
