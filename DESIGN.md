# Formal model of JanThorbecke/OpenSource in Lean 4

This file is written by `tools/design.py` from `tools/design_head.md` (sections 1-5), `properties.jsonl`, `MANIFEST.json` and
the axioms reported by Lean.

## 1. Conventions

* C control flow is transcribed function by function.  Loops become structural recursion, folds, or lists of the assignments
  they execute; mutable arrays become functions from index to value or lists; static variables become fields of a state that
  is passed from call to call.
* An access outside an array, an overflowing shift, a division by zero, a write past a string, and a call of the program's
  `err` are a distinct outcome (`none`).  Theorems of the form "the outcome is `some …`" therefore say that none of this
  happens.  Where the code does it, a theorem says so for a witness, or for every input of the bad class.
* Unbounded loops carry fuel; the theorems show that the fuel suffices, or that no fuel suffices (`gcd_uint_diverges`,
  `loop_never_ends`).
* `float` and `double` are exact numbers: ℚ, ℝ, ℂ, or an arbitrary commutative ring.  Rounding is not modelled, except that
  the zfp model takes the rounding of the decoded value as a parameter.  Machine integers are reduced modulo their size where
  the wrap-around matters (all of zfp); elsewhere they are ℤ or ℕ with range hypotheses in the statement.
* Parallel loops: every iteration is a thread; every read and every write of shared memory is an atomic step; a schedule is
  any interleaving between two barriers (`Verif/Base/Par.lean`, `ParProg.lean`).  Statements quantify over all schedules.
* A property the code violates has three parts: a theorem that refutes it (a witness, or the exact set of bad inputs), the
  strongest true form under a name ending in `_partial`, and a note in `MANIFEST.json`.
* Specifications stand apart from the model: they are either ordinary mathematics (`Finset` sums, `List` functions, ℚ
  arithmetic) or a small definition above the theorem.  Beside each theorem an `example` meets its hypotheses.

## 2. Trusted base

* The Lean 4.33.0 kernel and Mathlib's statements of the notions used in the specifications.
* Axioms: `propext`, `Classical.choice`, `Quot.sound`, nothing else.  The appendix lists them for every theorem of the
  manifest.  No axiom is added, no `sorry`, no `native_decide`, no `bv_decide`.
* The transcription of C into the model.  It is by hand; each definition cites its lines.  Nothing connects the C text to the
  model mechanically.
* Of the C language: `int` does not overflow outside zfp; `>>` of a negative number rounds down; `<<` of a negative number
  multiplies; distinct arrays do not overlap.

## 3. What is modelled

| part | code | modules |
|------|------|---------|
| parameters | `fdelmodc/getpars.c` (`initargs`, `getparindex`, `getpar*`, `getnpar*`, `countparval`, par-file scanner), `atopkge.c` (integer conversions) | `Getpar/*` |
| FFT | `FFTlib/kiss_fft.c` (plan, twiddles, all butterflies, `kf_work`), `lib_fft.c` (`rc1_fft`, `cr1_fft`, `cc1_fft`, `rcm_fft`, `crm_fft`, `ccm_fft` with their choice of the algorithm and all statics, `rcdft`, `crdft`), `xt2wx.c`, `wx2xt.c`, `xt2wkx.c`, `wkx2xt.c`, `cc2dfft.c`, `rc2dfft.c`, `cr2dfft.c`, `yxt2wkykx.c`, `wkykx2yxt.c` (branches without vendor libraries), `fft_mayer.c`, `trigtbl.h`, `optnumber.c`, `pfafft.c` (`npfa`, `npfar`, `npfao`, `pfacc`, `pfamcc`, `pfa2cc`, `pfarc`, `pfacr`, `pfa2rc` and `pfa2cr` along dimension 1, all ten butterflies) | `Fft/*` |
| Marchenko | `applyMute.c`, `mapj.c`, `synthesis.c` (loops, positions), `marchenko.c` (iteration), `getFileInfo.c`, `readShotData.c` (padding), `findFirstBreak.c`, time reversal and rotation | `Mute/*`, `Marchenko/*` |
| acoustic modelling | `acoustic4.c`, `boundaries.c` with `ischeme=1`: all four boundary types on all sides; `applySource.c` and `sourceOnSurface.c` for the acoustic source types | `Fd/Acou*`, `Base/Stencil*` |
| elastic modelling | `elastic4.c`, `boundaries.c` with `ischeme=3` | `Fd/Ela*` |
| medium parameters | `readModel.c` (grids, borders, CPML and air; relaxation times), geometry of `getParameters.c`; memory variables of `viscoacoustic4.c` and `viscoelastic4.c` at one point | `Med/*` |
| stability | `getModelInfo.c`; checks of `getParameters.c:231-336`; `acoustic2.c`, `acoustic4.c`, `acoustic6.c`, `acoustic16.c` (loops, free sides) over the real numbers | `Med/Info`, `Stab/*` |
| receiver positions | `recvPar.c` | `Recv/*` |
| snapshots and beams | `writeSnapTimes.c`, `getBeamTimes.c`, `getParameters.c:1059-1079` | `Snap/*` |
| virtual shot records | `corrvir/corrvir.c` (reading of headers from disk and timing not modelled) | `Vir/*` |
| basic operations | `utils/basop.c`: choice, operations with time only, averages, rotation, killing, `pad2d_data` (operations with wavenumbers, `scaletraces` not modelled) | `Basop/*` |
| gathers and filters | `utils/readData.c`, `utils/writeData.c`, `utils/getFileInfo.c` (with gathers), main loop of `utils/smooth.c` and `utils/basop.c`, `rSmooth` | `Su/*` |
| receiver files | loop over shots of `fdelmodc/fdelmodc.c`, `fdelmodc/writeRec.c` | `Fd/RunFiles` |
| source wavelet | `fdelmodc/defineSource.c` (wavelets from a file), resampling in `fdelmodc/getParameters.c` | `Fd/Wavelet` |
| padding and truncation of models | `utils/padmodel.c`, `utils/truncate.c` | `Util/PadModel` |
| wavelets | `utils/freqwave.c` (all kinds but `cs`, `inverse=2` and `shift` of `fw`) | `Util/FreqWave` |
| primaries | `marchenko/marchenko_primaries.c` (loop over samples, windows, `k1min`, `Mup`, `u-`/`v-`; the operator is a linear map; no plane waves) | `Marchenko/Primaries` |
| picks | `marchenko/readTinvData.c` (picks), `marchenko/fmute.c` (`findMax`, order of the gathers) | `Marchenko/Picks` |
| multi-dimensional deconvolution | `MDD/deconvolve.c` (mdd 0,1,2,4,6, LSQR operators), `MDD/computeMatrixInverse.c` (rthm 0-5); BLAS and LAPACK by contract; LSQR itself not modelled | `Mdd/*` |
| plane-wave windows | `marchenko/applyMute_plane.c`, `applyMute_tshift` of `marchenko/applyMute_tshift.c` (not `timeShift`) | `Mute/Plane`, `Mute/PlaneProps` |
| reverse time migration | `fdacrtmc/rtmImagingCondition.c` (modes 1, 2, 3, 5), `extractMigrationSnapshots.c`, shot/time loops and stacking of `fdacrtmc.c`, image grid of `getParameters.c`, snapshot bookkeeping and mute rows of `PlaneWaveDecomposition.c` | `Rtm/*` |
| vmar | `vmar/Marchenko_Iterations.c` (square geometry; the down-going loop and the addresses of the single-shot version) | `Vmar/*` |
| marchenko3D | `marchenko3D/synthesis3D.c`, `applyMute3D.c` (applyMute3D), `imaging3D.c`, `Cost3D.c` (the sum), `ampest3D.c` (AmpEst3D from the loop on), the amplitude and scale-factor loops of `marchenko3D.c` | `M3D/*` |
| fdelmodc3D | `fdelmodc3D/acoustic4_3D.c` and `elastic4_3D.c` (without sources), the index ranges of `getParameters3D.c`, the free surfaces of `boundaries3D.c` | `Fd3/*` |
| snapshot tools | `utils/readSnapData3D.c` (window), `utils/reshape_su.c`, `utils/snap2shot.c`, `utils/mutesnap.c` (without files and raytimes) | `Snap/*` |
| fdemmodc | `fdemmodc/em4.c` (without sources and boundaries), ranges of `getEmParameters.c` | `Em/*` |
| combine | `utils/combine.c` (copying, names, `gx`) | `Snap/Combine*` |
| bodies of makemod | `utils/diffraction.c`, `utils/elipse.c` (without random perturbation) | `Util/Shapes*` |
| extend3D, changevalue | `utils/extend3D.c` (copying), `utils/changevalue.c` (samples) | `Util/Extend3D` |
| combine_induced | `utils/combine_induced.c` (sum; threads for one element) | `Snap/Induced` |
| makeR1D | `utils/makeR1D.c` (geometry, samples) | `Snap/R1D` |
| wavenumber filter | `utils/kxwfilter.c` (`kxwfilt`) | `Util/KxFilter` |
| model size | `fdelmodc/getModelInfo.c` (size, spacing) | `Util/ModelInfo` |
| convhomg | `utils/convhomg.c` (wavelets, `deconv` without transforms) | `Util/ConvHomg` |
| electromagnetic medium | `fdemmodc/readEmModel.c` (grids, constants; not the reading) | `Em/Medium` |
| receivers of green | `utils/getrecpos.c` (`lint=1`), number of receivers of `utils/green.c` | `Util/RecPos` |
| interfaces of makemod | `utils/sinuousint.c`, `utils/fractint.c`, `utils/roughint.c` (without random numbers and transforms) | `Util/Interfaces` |
| readlog, mat2su | `utils/readlog.c` (blocking), `utils/mat2su.c` (gathers) | `Util/ReadLog` |
| positions of fdelmodc3D | `fdelmodc3D/readModel3D.c:73-92`, `applySource3D.c` (pressure sources: place, amplitude), `getRecTimes3D.c:33-61` | `Fd3/Place3D` |
| interpolated receivers of fdelmodc3D | `fdelmodc3D/getRecTimes3D.c:69-347` (pressure, stresses, velocities, divergence) | `Fd3/Trilinear` |
| receivers of fdelmodc3D at grid points | `fdelmodc3D/getRecTimes3D.c:350-487` (pressure, vx, vz; not `int_v=1`, stresses, curl) | `Fd3/Direct` |
| recording and sources | `fdelmodc.c` shot and time loops, `getRecTimes.c`, `applySource.c` amplitude, shot list of `getParameters.c` | `Fd/Recording*`, `Receiver`, `Source`, `Shots`, `ShotHistory` |
| makemod | `grid.c`, `gridabove.c`, `linearint.c`, `interpolation.c`, `polint.c`, `spline.c`, the layer loop of `makemod.c` | `Util/*` |
| fconv | `utils/fconv.c`: `convol`, `corr`, `corr3`, `power`, `deconv`, `cohr`, `pad_data`, `scl_data`, the gather loop of `main` | `Conv/*` |
| extrap | `toeplitz.c`, `shortoper.c` without its filter, `weightfunct.c`, `trunc1D.c`, `wrap` of `kxwfilter.c`, the loop over frequencies of `kwExtr.c`, `forwExtr` and `forwExtr_smooth` of `forwExtr.c`, `spline3.c` | `Toep/*`, `Extrap/*` |
| raytime | `vidale.c` (`vidale`, `near_source`, `side`, `corner`, `rm_head`), time and amplitude of the method "fd" in `raytime.c:325-338` | `Ray/*` |
| small programs | `extendModel.c`, `correlate.c`, `gcd_uint.c`, `transpose.h`, `name_ext.c` | `Util/*` |
| zfp | bit streams, negabinary, block order, embedded coder, lifting, integer and floating-point blocks, header, mode settings, strided arrays, promotion, block cache, compressed-array elements, iterators and pointers | `Zfp/*` |

Section 6 gives the model and the theorems property by property.

Simplifications that matter for reading the theorems:

* Finite differences: sources are part of the acoustic time step (`stepS`), not of the elastic one; the amplitude of a source
  in a step is an array element, and division by `l2m` is a product with an array of reciprocals.  Local variables are replaced by their
  expressions.  The moving surface (boundary type 5) is left out; `bnd.surface` is flat.  In the elastic free surface the
  quotient `lam*lam/l2m` is read from an array tied to `lam` and `l2m` by a hypothesis (`FreeMed`), because the expression
  language has no division.
* kiss_fft: a call is atomic, threads alternate call by call.
* Marchenko iteration: response and mute are arbitrary operators; the flat index is split in focal point, trace and sample.
* zfp cache: the compressor enters through laws (`Store.Laws`) that say what decoding an encoded block gives.
* zfp floats are rationals; scaling by powers of two is exact unless it underflows, and then the value becomes 0 either way.

## 4. What is not modelled

* Rounding of floating-point arithmetic, NaN, infinity.
* Files, stdio, SU/SEG-Y headers beyond the fields named in the models, `malloc` failure, MPI transport, timing, messages.
* Schemes other than acoustic4 and elastic4, and acoustic2/6/16 without sources and borders: SH4, ALE4, qr, elastic4dc, elastic6; of the visco-acoustic and
  visco-elastic schemes only the update of the stresses at a point (C97).
* The programs fdelmodc3D (apart from the acoustic and elastic sweeps and the acoustic free surfaces), fdemmodc (apart from the loops of em4), fdacrtmc (apart from imaging and two helpers), raytime (apart from the method "fd"), raytime3d, extrap (apart from the operators in section 3), extrap3d, vmar (apart from the iterations),
  huygens, timematerial, Green-time-variant, the reading and output of marchenko3D and its plane-wave windows, most of utils.
* FFT: `pfa2rc` and `pfa2cr` along dimension 2 (never called) are not modelled.  The static tables
  of `fht` are shared by threads; only one thread is modelled.
* zfp: OpenMP and CUDA execution, strided bit streams, array views, 3-D pointers and references.

## 5. Defects found

Each is proved of the model by the theorem named, except those marked (read), which were only seen while reading.

* getpars: the last byte of a par file is ignored (`last_byte_lost`); a word starting with a quote overruns the word array
  (`leading_quote_overruns`); an empty value looks like an absent parameter (`empty_value_looks_absent`).
* atopkge: unsigned conversions wrap negative texts (`unsigned_wraps`); a stale `errno` rejects valid texts
  (`stale_errno_rejects`).
* optncr/optncc: lengths shorter than asked for (`optn_too_short`, `optncc_too_short_beyond_table`).
* crdft after rcdft is wrong for every even length (`crdft_rcdft_even_wrong`).
* rcm_fft and crm_fft: with `ldr = n1` and `ldc` equal to the number of traces the half spectra are packed `n1/2+1` apart instead of
  `ldc` (`rcm_fft_layout_wrong`).
* fconv: samples of the convolution behind the padded length are added to the beginning (`convol_not_linear`); cor3 computes a
  convolution instead of a correlation (`corr3_wrong`); deconvolution with `eps=reps=0` divides by zero where the spectrum vanishes
  (`deconv_divides_by_zero`); the coherence uses an uninitialised factor at a tie with `epsmax` (`cohr_uninitialised`);
  `ntfft` above `ntmax` overflows an array and is ignored after the first gather (`ntfft_overflows`, `ntfft_forgotten`); a later gather larger
  than the first overflows the read buffer (`later_gather_overflows`); a single trace in the second file is not repeated for additional
  traces of later gathers (`repeated_trace_lost`); `auto=1` writes too many traces for a smaller gather (`auto_extra_traces`).
* kiss_fft: two threads with different signs (`two_threads_wrong_sign`).
* rc1_fft of power-of-two length: one and two points leave the arrays (`pow2_small_out_of_bounds`); from 262144 points on the
  result is wrong because the tables end (`rc1_pow2_large_wrong`), from 4194304 on the tables are left
  (`rc1_pow2_huge_out_of_bounds`).
* applyMute: mode -2 leaves a hole (`gateM2_leaves_hole`); late arrivals break complementarity
  (`theta_psi_not_complementary_late`).
* readShotData: the last sample of a padded trace is lost (`last_sample_lost`); a short transform overflows
  (`short_transform_overflows`).
* getFileInfo: single-trace gathers (`single_trace_gathers`).  synthesisPositions: position -1 (`position_minus_one`).
* fdelmodc recording: a trace spills into the next (`spill_into_next_trace`); shots dropped (`shots_lost`); beams and
  visco-acoustic memory survive between shots (`beams_accumulate`, `visco_memory_survives`); receivers interpolate with the
  wrong neighbour (`vx_to_p_elastic_wrong`, `p_to_vx_wrong`, …); recording at a free surface races (`recording_race`).
* acoustic4: PML at top or bottom with a free or rigid side reads outside the arrays (`step_out_of_bounds`); a rigid wall
  opposite a padded side mirrors at the wrong place (`inner_wall_jumps`); the optimised coefficients are not exact for
  linear fields (`acoustic_slope_wrong`).
* Sources on surfaces: a monopole on a free bottom or right side is wiped in every step and generates no field
  (`bottom_source_lost`, `cleared_source_lost`); a plane wave or source array past the left edge on a free top reads and
  writes before the pressure array (`plane_wave_out_of_bounds`); a silent source on a free surface takes its point out of the
  surface (`silent_source_matters`).
* elastic4: the shear loop uses the range of the normal stresses, so without PML at the left it reads `vz` before the array
  (`elastic_out_of_bounds`), and without PML at the right or bottom the last column or row of the shear stress is never
  updated (`elastic_shear_frozen`).
* Rigid walls are not shifted with the model when another side has a taper or PML: the wall then lies inside the model
  (`elastic_bottom_wall_cuts`, `elastic_right_wall_cuts`) and ends before the last columns (`elastic_bottom_wall_short`).
* readModel, elastic with PML: the first extension copies into the first column and last row of `roz` of the model itself
  (`pml_roz_shifted`, `pml_roz_example`); the shear modulus uses the density of the wrong column (`shear_wrong_density`).
* toeplitz.c: the comment calls the coefficients the first row, the code uses them as first column (`toeplitz_not_row`); order 1
  reads beyond the coefficients (`toeplitz_one`).
* shortoper, weightfunct: an odd number of wavenumbers leaves one weight unset (`weightfunct_odd`); a band beyond the Nyquist
  wavenumber leaves all unset or writes before the array (`weightfunct_unset`, `weightfunct_outside`); an even operator length
  writes one element too far (`trunc1D_even`).
* kwExtr: the padded samples are not cleared between frequencies, so what is recorded at one frequency depends on the data of
  another (`kwExtr_leak`); the Nyquist wavenumber is multiplied twice (`kwExtr_nyquist`).
* forwExtr_smooth: for an odd number of wavenumbers the final rotation is one sample off (`cwrap_odd`).
* raytime: the mean velocity of the method "fd" divides the sum of nr terms by nr-1 (`cpAverage_constant`, `cpAverage_next`).
* recvPar: a vertical line with `dzrcv` only slants (`vertical_slants`); last receiver off the grid (`horizontal_overshoots`,
  `array_not_clipped`); a line of one point is refused (`point_refused`); memory errors (`negative_dx`, `too_many_dx`,
  `shared_spacing_unset`).
* writeSnapTimes: samples of the next column (`snapshot_wrong_column`); with borders one position for all traces
  (`withbnd_same_position`) and reads outside the arrays (`withbnd_vz_out`, `withbnd_vx_out`).
* getBeamTimes: the field is taken `npml` points before its point (`beam_values_partial`); header positions ignore the decimation
  (`beam_position_wrong`).
* corrvir: a virtual source outside the tolerance is used (`tolerance_ignored`), the tolerance is that of the squared distance
  (`tolerance_squared`), `scalco=0` gives the first receiver (`scalco_zero`).
* corrvir: `src_sel=1` leaves out sources far outside the square (`select_square_wrong`), `src_sel=2` takes all sources
  (`select_donut_all`), `src_sel=3,4` none along a line (`select_quadrant_line`), others use a variable without value (`select_unknown`).
* corrvir: `cohr=1` with too few sources aborts (`virtualTrace_few_coherence`); the threads share the position of the input file
  (`read_race`).
* basop: the documented `scaletraces` overruns `choice[10]`, `killof` selects nothing (`dispatch_defects`).
* basop: `hilb` gives half the Hilbert transform (`hilbertTrans_cosine`), `env` of a constant twice the constant
  (`envelope_constant`), `conjg` is one sample late (`conjugate_late`), a shift of zero drops the Nyquist component (`timeShift_zero`).
* basop: `nrot` is ignored and `trot` truncated to seconds (`nrotOf_ignored_partial`), a rotation to the left writes before the array
  (`timeRotate_negative`), `f1` accumulates over gathers (`shiftF1_val`).
* basop: `pad2d_data` misplaces traces and leaves memory uninitialised (`pad2d_misplaced`, `pad2d_uninitialised`).
* basop: `kill` ignores a last number without newline, takes an empty line as 0 and checks no number (`killScan_empty`,
  `killTraces_outside`).  Not modelled, seen when reading: `spaceDiff` with opt<0 uses an unset column, `depthDiff` runs one past its
  arrays, the mirror loop of `decompAcoustic` never runs, `kill_traces` starts with an unset buffer.
* readData: the number of traces of a gather is not compared with the arrays; programs that size them by the first gather overrun them when
  a later one is larger (`readData_overrun`, `filter_larger_gather`); on a pipe the header of the next gather is lost (`readData_pipe`).
* smooth: a power such as 2 loses the sign of the data (`pw_sign`).
* writeRec: a record split over several files is written from beyond the end of the arrays (`run_split`); the number of samples in the
  header is taken modulo 65536 (`expected_ns`).  Seen only: with one receiver `dx` is computed from `rec.x[1]`; up/down separation with
  ischeme 2 writes nothing and with ischeme 3 and 4 closes files never opened.
* defineSource: when the interpolated length is even and has no fast transform (1000 samples at 3 ms for a modelling with 1 ms), the
  `n/4` term of `crdft` adds a spike to every second sample (`wavelet_silent_wrong`); wavelets whose step is no multiple of that of the
  modelling are played too fast or too slow (`resample_steps`, `resample_stretched`); small samples of all wavelets are judged by the
  amplitude of the last one (`cutSmall_silenced`).
* padmodel: with padding in depth the deepest `nzpad` samples of the model are overwritten (`padmodel_bottom_lost`) and with a value the
  padding above the model stays zero (`padmodel_value_misplaced`); truncate: a depth one sample below the model is accepted and reads
  beyond the data (`truncate_last`), the depth of the first sample is refused (`truncate_first_refused`).
* freqwave: `w=mon` without `fp` writes to a negative index (`mon_default_ub`), one frequency above the band is let through
  (`mon_above_ub`), `w=fw` with `fp` given does not check `fmax` (`fw_ub`); `sqrtg2` is attenuated by half the dB asked for
  (`sqrtg2_not_attenuated`); `g1` is zero where its peak should be (`freqwave_g1`).
* marchenko_primaries: passes that reuse the previous sample add the data forward in time to the reversed `k1min`
  (`reuse_actual`, `primaries_reuse_wrong`) and write with an unset index, outside of `M0` for samples up to `shift`
  (`primaries_reuse_ub`); `niterec` of 4 or more counts the update several times (`update_counted_twice`); the taper of the causal window
  follows the mute and has no effect (`early_abrupt`); `file_vmin` for samples before `shift` writes before the trace (`vmin_ub`).
* fmute: with `file_mute` the file is closed after the first gather and read again (`fmute_file_ub`); `itb` is ignored when it is at the local
  maximum (`fmute_itb_ignored`); wider gathers overrun the picks (`fmute_wider_ub`).  readTinvData: the source trace is not checked
  (`tinv_picks_ub`); picks drift on dead traces (`Tracked.drift`).
* mdd: output stride wrong for unequal numbers of traces (`fewer_traces_fails`, `more_traces_mixed`, `corr_more_stop`); `conjgA` applied twice
  (`conjgA_wrong`); sign of the transmission series (`transmission_sign`); `Aprod2_` clears its argument (`aprod2_overwrites`); `mdd=2` overruns
  its scratch matrix (`mdd2_shots_ub`).
* applyMute_plane: with a taper Theta and Psi do not add up at the negative end (`plane_theta_psi_lose`).
* fdacrtmc: Poynting source flux one point off (`poynting_shift`); left-right Hilbert image wrong or out of bounds (`hilbert_leftright_*`); plane-wave imaging uses unset snapshots and wrong times when the image step divides the run (`plane_misaligned`), overruns for even lengths (`plane_mute_overrun`); mode 3 images nothing; image steps of zero grid points divide by zero.
* vmar: the work spectrum keeps the frequencies outside the band of the last trace a thread transformed, so results depend on the number of threads (`threads_matter`); the down-going Green's function uses the old focusing function in its causal half (`green_plus_stale`); more shots than stations read past the frequency (`single_bounds`); `readDataTD` is called with one argument fewer than it is defined with (read).
* marchenko3D: positions lost or repeated for shots that are not in order (`position_lost`, `position_repeated`); windows 0, -2 and 4 leak single samples (`theta3D_leak`, `psi3D_partial`); the cost is summed by all threads without protection (`cost_lost_update`) and called with the sizes of the shots instead of the operators (read); the amplitude of a focal point includes the earlier ones (`ampEst_accumulates`); the Green's function is scaled with a stride without nys (`amp_green_wrong`); the step of the scale factors is only computed with verbose (`scale_quiet`), and no factor is chosen with one iteration (`scale_one_iteration`).
* fdelmodc3D: with a free top and no taper the pressure sweep reads `vz` while other threads still mirror it at the surface (`free_surface_race`; a barrier repairs it, `step_schedule_barrier`); read only: the PML of `boundariesV3D` addresses `p[ix*n1+iz]` without the plane `iy`, and the rigid back wall uses the uninitialised private `iy` (boundaries3D.c:140).
* mutesnap: with opt=1 and a taper every trace whose arrival is later than `shift` reads before the beginning of the taper (`start_outside`).
* mutesnap: the numbers of columns and lines of `fhom` are exchanged, so that with mode 0 or 1 every volume that does not have as many columns as lines is
  refused, in particular every 2D section (`same_volume_refused`).  The size in time of the two files is not compared: a longer `fsnap` overruns its array (read).
* snap2shot: a first number of two or more digits makes the program look for another file than the one named (`names_more_digits`); a name without the number
  dereferences a null pointer (`names_absent`); a digit in a directory name is taken for the number (`names_wrong_digit`).
* reshape_su: the scale factor of coordinates is replaced by -1000 without rescaling the coordinates (`header_position_partial`).
* fdemmodc: iorder=2 reads before the beginning of the magnetic field (`em_order_two`).
* fdemmodc: the work arrays of the electric field belong to a thread, but nothing ties the three loops over rows to the same threads (`em_other_thread`); they
  are never freed (read).  The magnetic constant is `4π·10e-7`, ten times too large (`mu0_ten_times`).
* combine: files are shifted by one sample and not by their thickness, so thicker files overwrite each other and the end of the volume is zero (`combine_thick`).
  A first number of two or more digits reads other files than the one named (`combine_name_more`).  Positions are rounded to whole metres (`combine_gx_wrong`).
* makemod: a square diffractor, the default, of one grid point is not in the model at all (`square_one_empty`).  A diffractor at the edge of the model writes
  outside the grid (`diffraction_edge`).
* extend3D: an interface at the bottom of the model, or above its top, makes the program leave its arrays (`extend_outside`).
* combine_induced: an even number of snapshots reads after the end of the input (`induced_even`); more files than traces write after the end of three arrays
  (`induced_many_files`); the threads update the shared sum without synchronisation (`induced_race`).
* makeR1D: the output spacing is cut to whole metres (`response_fraction`, `response_small_spacing`).  Records that are not centred at zero, or sources on a
  coarser grid, make it read outside the input (`response_one_sided`, `response_factor`).
* basop kxwfilter: with a negative `perc` the taper is not limited to the Nyquist wavenumber and is written before the table (`filter_aliased`).
* getModelInfo: a horizontal spacing other than the vertical one is replaced by it, with a warning (`info_spacing_square`).
* convhomg: the middle sample of a wavelet with an odd number of samples is lost (`circle_odd`); a deconvolution wavelet longer than the circle is mixed
  (`circle_mixed`) or written outside its array (`circle_long`).
* fdemmodc: the magnetic constant is written `4.0*M_PI*10e-7`, ten times too large, and the electric constant follows as a tenth (`constants_wrong`); the
  velocity is not affected (`wave_velocity`).
* green: a line of receivers that turns back writes after its arrays (`receivers_back`); one that goes to the left has no valid size (`receivers_left`); a
  vertical one has only its last point (`receivers_vertical`).
* roughint: one element of the spectrum is never set (`rough_unset`), and the negative wavenumbers are not weighted (`rough_unweighted`).
* readlog: lines closer than a sample are followed one per sample, so the samples lag behind the log (`log_thin`); a log of one line is read after its end
  (`log_one`).
* mat2su: a last gather that is not whole is completed with the numbers of the one before (`mat2su_short`).
* fdelmodc3D: sources and receivers test `bnd.bac==4 || bnd.fro==2` where the model tests `bnd.fro==4 || bnd.fro==2`; with a taper at one of the two sides only
  they are displaced by the length of the layer (`place_front_only`, `place_back_only`).  A source one node after the model is used (`place_outside`).
* fdelmodc3D, `rec_int_p=3`: the recorded `vx` is interpolated from the array `vy` (getRecTimes3D.c:331-338), so it does not depend on `vx` (`recVx_ignores`, `recVx_node`, `recVx_wrong`).
  `vy` and `vz` are recorded half a grid point past the receiver (`recV_half`); the divergence divides all differences by `dx` (`recPP_linear`, `recPP_wrong`).
* fdelmodc3D at grid points: `vy` is never recorded (`record_vy`); `rec_int_vx=2` reads `vx[ix2*n1+iz]` without `iy*n1*n2`, from the first plane of the array (getRecTimes3D.c:474,
  `recVx_error`); `rec_int_p=2` uses `l2m` of one node for both (line 393, `recP_x_error`).
* readModel: a density or S velocity file with too few traces leaves columns that were never set (`short_file_undefined`).
* visco schemes: with several `fw` the modulus is multiplied by their number (`modulus_multiplied`), and the visco-elastic scheme
  writes outside its arrays (`relax_overflow`); the visco-elastic scheme uses help variables that were never set in the last row
  (`shear_uninitialised`) and never updates the last column of the shear stress (`shear_last_column`).
* stability: the check admits Courant numbers up to 0.606 for order 4 and 6, but the coefficients of acoustic4.c and acoustic6.c are
  stable up to 0.6033 and 0.5695 only (`accepted_unstable`); it ignores the density, and from order 4 on strong density contrasts
  are unstable for every time step (`no_time_step`, `accepted_unstable_density`); a first trace of zeroes hides the smallest velocity
  (`air_column_refused`, `slow_shear_accepted`).
* acoustic2: the columns of `vz` are taken from the range of the rows (`columns_missed`, `tall_outside`).
* sources: last wavelet sample never applied (`last_sample_silent`); random signals read beyond the buffer (`random_overrun`).
* gcd_uint never returns (`gcd_uint_diverges`); transpose overruns and races (`transpose_overruns`,
  `transpose_shared_j_race`); coherence above one (`coherence_above_one`).
* name_ext: first occurrence replaced, directory names cut, overflow (`name_ext_cut`, `name_ext_directory`,
  `name_ext_overflow`).
* makemod: `linear_interface_drifts`, `linear_interface_outside`, `linear_interface_one_point`, `grid_gradient_spills`,
  `grid_gradient_outside`, `grid_gradient_overshoots`, `grid_above_outside`, `lateral_shifts`, `lateral_two_outside`.
* zfp: `accuracy_violated`, `tiny_block`, `budget_violated`, `maximum_size_wraps`, `maximum_size_violated`,
  `default_strides_violated`, `loop_never_ends`, `metadata_truncated`, `cache_tag_wraps`, `pointer2_wraps`, `blocks_wrap`.
* (read) `ntaper=` is always overridden (getParameters.c:379-380); recvPar `dxr[i]=dx` with the wrong index; writeSnapTimes
  index -1; storeSourceOnSurface `orient==4`; plane waves with `multiwav=0` overflow `nsamp` when `nsrc>1`; `readTinvData.c`
  tracks without a clamp; extrap/lib/getpars.c allocates `strlen` bytes for a
  string and its zero.

## 6. Properties

For each property: what is modelled and where the theorems are, how far it is proved, and what is missing or false.

**C01 Last occurrence wins; command line overrides par file** (proved).  Code: fdelmodc/getpars.c: getparinit, tabulate, getparindex, countparname, getnpar.  Modules: `Verif/Getpar/Props.lean`.
Theorems: `getparstring_last_wins`, `query_after`, `getpar_same_value`, `absent_or_last`.  for every history of initargs and queries

**C02 An absent parameter leaves the caller's default untouched** (partial).  Code: fdelmodc/getpars.c: getnpar, getparindex.  Modules: `Verif/Getpar/Props.lean`.
Theorems: `absent_leaves_default`, `stores_exactly_count_partial`, `empty_value_looks_absent`.  absent case and exact extent of the writes proved; 'returns at least 1' refuted for an empty value

**C03 Comma lists are delivered completely and in order** (proved).  Code: fdelmodc/getpars.c: getnpar, countnparval, ccount; fdelmodc/atopkge.c: eatoi.  Modules: `Verif/Getpar/Props.lean`.
Theorems: `comma_list_complete`, `comma_list_from_command_line`.  

**C04 Every word of a par file is seen** (partial).  Code: fdelmodc/getpars.c: getparinit, white2null.  Modules: `Verif/Getpar/ParFile.lean`.
Theorems: `parfile_words_partial`, `parfile_value_seen`, `pfname_last`, `pfname_absent`, `last_byte_lost`, `last_byte_lost_witness`, `leading_quote_overruns`, `trailing_text_overruns`.  refuted: the last byte of the file is ignored; proved for files that end in a blank, including quoted values; a word starting with a quote overruns the word array

**C05 optncr/optncc/optnfft lengths are never too short** (partial).  Code: FFTlib/optnumber.c: optncc, optncr; FFTlib/pfafft.c: npfa, npfar; FFTlib/pfaconst.h.  Modules: `Verif/Fft/OptN.lean`.
Theorems: `optncc_ge_partial`, `optncr_ge_partial`, `optn_ge_partial'`, `optn_too_short`, `optncc_too_short_beyond_table`.  true for n<=16384 and, up to the table limit, for every n not within the factor 1+1/8192 above a power of two; false in general: 16385 -> 16384, and every non power of two above 720720 -> 720720

**C06 npfa/npfar return the smallest valid length** (proved).  Code: FFTlib/pfafft.c: npfa, npfar; FFTlib/pfaconst.h.  Modules: `Verif/Fft/PfaTable.lean`.
Theorems: `npfa_least`, `npfar_least`, `npfa_mono`, `npfa_idem`, `npfa_too_short`, `npfao_cheapest`.  up to the table limit; beyond it the request is silently not met

**C07 kiss_fft factorisation multiplies back to n** (proved).  Code: FFTlib/kiss_fft.c: kf_factor, kiss_fft_alloc.  Modules: `Verif/Fft/KissFactor.lean`.
Theorems: `kfFactor_plan`, `kfFactor_fits`, `kfFactor_spec`, `kfFactor_radix_prime`.  

**C08 kiss_fft computes the discrete Fourier transform** (proved).  Code: FFTlib/kiss_fft.c: kf_bfly2, kf_bfly3, kf_bfly4, kf_bfly5, kf_bfly_generic, kf_work, kiss_fft.  Modules: `Verif/Fft/KissDft.lean`, `Verif/Fft/KissProps.lean`.
Theorems: `kfWork_dft`, `kiss_fft_is_dft`.  Exact complex arithmetic.

**C09 The sign argument of the complex FFT is honoured for every call history** (partial).  Code: FFTlib/kiss_fft.c: kiss_fft_alloc, previous_sign; FFTlib/cc1fft.c.  Modules: `Verif/Fft/KissProps.lean`.
Theorems: `sign_honoured_partial`, `two_threads_wrong_sign`.  Every single-threaded history; refuted for two threads.

**C10 Forward followed by inverse complex transform is n times the identity** (proved).  Code: FFTlib/kiss_fft.c; FFTlib/cc1fft.c.  Modules: `Verif/Fft/KissProps.lean`.
Theorems: `dft_roundtrip`, `cc1_roundtrip`.  

**C11 Real-to-complex and complex-to-real DFT round trip** (partial).  Code: FFTlib/lib_fft.c: rcdft, crdft.  Modules: `Verif/Fft/RealDft.lean`.
Theorems: `crdft_rcdft_odd_partial`, `crdft_rcdft_even_iff`, `crdft_rcdft_even_wrong`.  true for odd n; false for every even n (the code subtracts +-n/4): the exact error is given by crdft_rcdft

**C12 The two muting windows are complementary** (partial).  Code: marchenko/applyMute.c: applyMute; marchenko/mapj.c: mapj.  Modules: `Verif/Mute/Props.lean`.
Theorems: `theta_psi_complementary`, `theta_psi_not_complementary_late`, `gate7_complementary`, `gate6_gate10_complementary`.  Complementarity proved for all traces whose taper windows lie inside the trace; a concrete late-arrival trace refutes it in general.

**C13 Muting never touches samples on the kept side** (partial).  Code: marchenko/applyMute.c: applyMute.  Modules: `Verif/Mute/Props.lean`.
Theorems: `gate1_mutes_early`, `gateM1_mutes_late`, `gate0_mutes_between`, `gate4_keeps_between`, `gate0_time_symmetric`, `gateM2_leaves_hole`.  Proved per mode; mode -2 violates it (gateM2_leaves_hole).

**C14 Circular time index stays inside the trace** (proved).  Code: marchenko/mapj.c: mapj.  Modules: `Verif/Mute/Props.lean`.
Theorems: `mapj_periodic`, `mapj_in_range_iff`.  

**C15 Time reversal is an involution** (proved).  Code: marchenko/readTinvData.c: readTinvData; marchenko/marchenko.c: main (Ni(-t)).  Modules: `Verif/Marchenko/TimeRev.lean`.
Theorems: `reverseShot_reverses`, `reverseShot_involutive`.  

**C16 Rotating output time to the middle loses no sample** (proved).  Code: marchenko/marchenko.c: main (rotate).  Modules: `Verif/Marchenko/TimeRev.lean`.
Theorems: `rotate_is_circular_shift`, `rotate_loses_nothing`, `rotate_t0_in_middle`, `rotate_odd_loses_t0`, `nts_even`.  for the even transform lengths the program produces (nts_even); an odd length would lose a sample (rotate_odd_loses_t0)

**C17 All samples of a shot record are used** (partial).  Code: marchenko/readShotData.c: readShotData.  Modules: `Verif/Marchenko/TimeRev.lean`.
Theorems: `last_sample_lost`, `all_samples_used_partial`, `no_padding_partial`, `short_transform_overflows`.  refuted: the last recorded sample is not copied when padding; the exact set of used samples is proved

**C18 Gather counting** (partial).  Code: marchenko/getFileInfo.c: getFileInfo.  Modules: `Verif/Marchenko/FileInfo.lean`.
Theorems: `ngath_counts_runs`, `gather_length_partial`, `single_trace_gathers`, `extent_is_tight`.  gather count proved for all files; the maximal length is refuted for single-trace gathers and proved otherwise

**C19 Synthesis positions are a duplicate-free increasing list** (partial).  Code: marchenko/synthesis.c: synthesisPositions, linearsearch.  Modules: `Verif/Marchenko/Positions.lean`.
Theorems: `positions_sorted_and_complete_partial`, `accepted_in_range`, `position_minus_one`, `position_overflow`.  proved when accepted shots fall on operator positions, which holds if the one-per-mille margin is below half a grid step; refuted otherwise (position -1, write outside ixpos)

**C20 Synthesis result does not depend on the thread schedule** (proved).  Code: marchenko/synthesis.c: synthesis.  Modules: `Verif/Marchenko/Synth.lean`, `Verif/Base/ParProg.lean`.
Theorems: `synthesis_schedule_independent`, `synthesis_lost_update`, `reciprocal_schedule_independent`, `par_eq_seq`, `sum_eq`.  interleaving semantics at the granularity of single reads and writes

**C21 Marchenko iteration invariant** (partial).  Code: marchenko/marchenko.c: main (iteration loop).  Modules: `Verif/Marchenko/Iter.lean`.
Theorems: `iteration_sums_partial`, `f2_from_f1_partial`, `green_decomposition_partial`, `conj_is_reversal`.  for arbitrary response and mute operators; the variant above=-2, which mutes f1- again in every even iteration, is excluded

**C22 Every shot is modelled by exactly one MPI process** (proved).  Code: fdelmodc/fdelmodc.c: main (npeshot, is0, is1).  Modules: `Verif/Fd/Shots.lean`.
Theorems: `every_shot_once`.  For every monotone single-precision rounding and up to 2^21 shots.

**C23 Receiver recording stays inside the trace and records every step once** (partial).  Code: fdelmodc/fdelmodc.c: main (recording block); fdelmodc/getRecTimes.c; fdelmodc/getParameters.c: rec.nt.  Modules: `Verif/Fd/RecordingProps.lean`.
Theorems: `recorded_steps`, `inRange_iff`, `default_inRange_iff`, `split_out_of_range`, `recorded_trace_partial`, `spill_into_next_trace`.  False of the code when the recording interval is not a multiple of dtrcv; exact characterisation proved.

**C24 Shots are modelled independently** (partial).  Code: fdelmodc/fdelmodc.c: main (memset of wavefields between shots).  Modules: `Verif/Fd/ShotHistory.lean`.
Theorems: `shots_independent_partial`, `visco_memory_survives`, `visco_shots_dependent`, `beams_accumulate`.  Proved for every kernel and all schemes except visco-acoustic with nfw>1; refuted there and for beams.

**C25 All requested shots that fit in the model are modelled** (partial).  Code: fdelmodc/getParameters.c: shot positions.  Modules: `Verif/Fd/Shots.lean`.
Theorems: `all_shots_kept_partial`, `shots_kept_when_line_leaves_model`, `shots_lost`, `kept_shots_inside`, `first_shot_outside`.  Refuted when the line leaves the model (one shot too many is dropped); proved otherwise.

**C26 Finite difference sweeps touch only allocated grid points** (partial).  Code: fdelmodc/acoustic4.c: acoustic4; fdelmodc/getParameters.c: ioX..ieT.  Modules: `Verif/Fd/AcouBounds.lean`.
Theorems: `step_in_bounds_partial`, `step_out_of_bounds`.  proved for every grid whose sides next to a PML top or bottom are padded; otherwise every such grid reads outside its arrays

**C27 The acoustic time step is linear** (proved).  Code: fdelmodc/acoustic4.c: acoustic4.  Modules: `Verif/Fd/AcouLinear.lean`.
Theorems: `propagate_linear`, `propagate_rest`, `propagate_medium`.  exact arithmetic; boundary types 1-4, fourth-order scheme

**C28 Parallel sweep is schedule independent** (partial).  Code: fdelmodc/acoustic4.c: acoustic4.  Modules: `Verif/Fd/AcouSched.lean`, `Verif/Fd/AcouSrcSched.lean`, `Verif/Fd/AcouInject.lean`.
Theorems: `parSteps_eq_partial`, `parSteps_exists`, `parStepsS_eq_partial`, `parStepsS_exists`, `sources_any_order`, `recording_race`, `wall_race`.  interleavings of single reads and writes, without (parSteps) and with sources (parStepsS; sources inject in any order, one at a time, as in the critical section); proved for at least 3 by 3 points; one-row rigid grids race, and so does recording at a free surface (no barrier before it)

**C29 Finite speed of the discrete wave** (partial).  Code: fdelmodc/acoustic4.c: acoustic4.  Modules: `Verif/Fd/AcouSpeed.lean`.
Theorems: `finite_speed_partial`, `inner_wall_jumps`.  three points per step, for every medium and support; free, rigid and taper sides; PML not covered; a rigid right or bottom wall opposite a padded side carries the field further (refuted there)

**C30 Source wavelet interpolation stays within the wavelet** (partial).  Code: fdelmodc/applySource.c: applySource; fdelmodc/getParameters.c: wav.nsamp.  Modules: `Verif/Fd/Source.lean`.
Theorems: `file_wavelet_interpolated_partial`, `interp_at_samples`, `interp_between`, `point_source_sample`, `last_sample_silent`, `random_in_bounds_partial`, `random_overrun`.  wavelets from a file: proved, except that the last sample is never applied (refuted); random signals read one sample beyond their buffer when the fraction of the duration is below one half (refuted), otherwise in bounds

**C31 Receiver interpolation is the average it claims to be** (partial).  Code: fdelmodc/getRecTimes.c: getRecTimes.  Modules: `Verif/Fd/Receiver.lean`.
Theorems: `vz_to_vx`, `vx_to_vz`, `vz_to_p_acoustic`, `vx_to_p_acoustic`, `vz_to_p_elastic`, `txz_to_p`, `p_to_vz`, `exact_position`, `exact_at_node`, `vx_to_p_elastic_wrong`, `vx_to_p_visco_null`, `p_null`, `p_to_vx_wrong`, `vx_to_p_left_edge`, `vz_vx_apart`, `exact_vx_shifted`.  the means and positions are proved where they hold; refuted for vx to P in the elastic and visco-acoustic schemes, P to vx, receivers on the first column, and exact-position recording of vx

**C32 Bit stream round trip** (proved).  Code: zfp/include/zfp... inline/bitstream.c: stream_write_bit, stream_write_bits, stream_read_bit, stream_read_bits, stream_flush, stream_rewind, stream_wtell, stream_rtell.  Modules: `Verif/Zfp/BitstreamProps.lean`.
Theorems: `round_trip`, `flushed_memory`.  every word size from 1 to 64 bits; strided streams not modelled

**C33 Bit stream positioning** (proved).  Code: zfp/src/inline/bitstream.c: stream_rseek, stream_wseek, stream_pad, stream_skip, stream_align.  Modules: `Verif/Zfp/BitstreamProps.lean`.
Theorems: `seek_read`, `seek_write`, `skip_tell`, `align_tell`, `copy_correct`.  

**C34 Negabinary mapping is a bijection** (proved).  Code: zfp/src/template/encode.c: int2uint; zfp/src/template/decode.c: uint2int.  Modules: `Verif/Zfp/Coeff.lean`.
Theorems: `negabinary_bijective`, `negabinary_value32`, `negabinary_value64`, `few_planes32`, `few_planes64`, `drop_planes32`, `drop_planes64`.  

**C35 Coefficient order is a permutation** (proved).  Code: zfp/src/template/codec1.c..codec4.c: perm; zfp/src/template/encode.c: fwd_order; zfp/src/template/decode.c: inv_order.  Modules: `Verif/Zfp/Coeff.lean`.
Theorems: `order_round_trip`, `order_round_trip_tables`, `sequency_order`, `perm1_lists`, `perm2_lists`, `perm3_lists`, `perm4_lists`.  

**C36 Embedded coder round trip** (proved).  Code: zfp/src/template/encode.c: encode_ints; zfp/src/template/decode.c: decode_ints.  Modules: `Verif/Zfp/CoderProps.lean`.
Theorems: `blocks_round_trip`, `decoded_enough`, `decoded_exact`, `max_bits_suffices`, `max_bits_tight`.  Both coders (blocks of at most 64 values and larger ones), any word size of the stream, any sequence of blocks, budgets and precisions. 'Enough' is planes*size + size-1 bits, and ZFP_MAX_BITS is exactly that for 4-D doubles plus 12 exponent bits.

**C37 The bit budget is obeyed** (proved).  Code: zfp/src/template/encode.c: encode_ints; zfp/src/template/decode.c: decode_ints.  Modules: `Verif/Zfp/CoderProps.lean`.
Theorems: `blocks_round_trip`, `embedded`, `progressive`, `decoder_total`.  Every budget cut; a smaller budget gives a prefix; a decoder with a smaller budget gets the covered planes exactly; a decoder on arbitrary memory finishes within its budget and inside the block.

**C38 Block transform error is bounded** (proved).  Code: zfp/src/template/encode.c: fwd_lift; zfp/src/template/decode.c: inv_lift.  Modules: `Verif/Zfp/LiftProps.lean`.
Theorems: `lift_round_trip`, `xform_round_trip`, `errB_values`, `errB_le`, `lift_overflows`, `inv_lift_overflows`.  One to four dimensions, any word width, with overflow either undefined or wrapping; at most 2 units per value in one dimension for exact coefficients, errB d delta for coefficients off by delta. Outside the stated range the transform overflows (proved).

**C39 Header round trip** (partial).  Code: zfp/src/zfp.c: zfp_field_metadata, zfp_field_set_metadata, zfp_stream_mode, zfp_stream_set_mode.  Modules: `Verif/Zfp/HeaderProps.lean`.
Theorems: `header_round_trip`, `header_accepts`, `short_modes`, `metadata_truncated`.  Every mask, field and parameter the format can represent, at any stream position. Sizes beyond the bits of the format are written without a check and read back wrong (metadata_truncated).

**C40 Integer promotion round trip** (proved).  Code: zfp/src/zfp.c: zfp_promote_int8_to_int32, zfp_demote_int32_to_int8, ....  Modules: `Verif/Zfp/Promote.lean`.
Theorems: `promote_demote`, `demote_saturates`, `demote_error`.  int8, uint8, int16 and uint16 blocks of every dimension. Demotion rounds down and saturates; an error of any size below the value lowers it by one.

**C41 Block cache is transparent** (partial).  Code: zfp/array/zfp/cache.h: Cache::access, lookup, flush; zfp/array/zfparray2.h: line, flush_cache.  Modules: `Verif/Zfp/CacheProps.lean`.
Theorems: `cache_refines`, `new_array`, `cache_transparent`, `read_after_write`, `reads_keep_data`, `flush_once`, `cache_size`, `cache_replaces`, `cache_tag_wraps`.  Every sequence of get/set/copy/flush/clear/resize calls, every cache size up to 2^31 lines, direct mapped and two-way with either hash, refines an array without cache in which changed blocks are compressed at some moments. The compressor enters through its laws (Store.Laws): encoding a block leaves the others alone and a decoded block is related to the encoded one; the laws are not derived from the float codec model. Fails (cache_tag_wraps) for arrays of 2^31 blocks or more: the tag does not fit in 32 bits.

**C42 Polynomial interface passes through its points** (proved).  Code: utils/polint.c: polint.  Modules: `Verif/Util/Polint.lean`.
Theorems: `polint_interpolates`, `polint_passes_through`, `polint_stops`.  exact arithmetic; any number of points; two equal abscissae stop the program

**C43 Spline interface passes through its points** (proved).  Code: utils/spline.c: spline, splint.  Modules: `Verif/Util/Spline.lean`.
Theorems: `spline_interpolates`, `spline_passes_through`, `spline_one_point`.  exact arithmetic; two or more points with increasing abscissae. With a single point the routine writes outside its scratch array (spline_one_point)

**C44 gcd_uint terminates with the greatest common divisor** (partial).  Code: fdacrtmc/gcd_uint.c: gcd_uint.  Modules: `Verif/Util/Gcd.lean`.
Theorems: `gcd_uint_trivial_partial`, `gcd_uint_diverges`, `strip_finishes`.  refuted: for different non-zero arguments the function never returns (no subtraction in the loop); the trivial pairs are proved

**C45 Extending a model repeats the edges and keeps the interior** (proved).  Code: utils/extendModel.c: main.  Modules: `Verif/Util/ExtendModel.lean`.
Theorems: `extendModel_correct`, `extendModel_coordinates`.  

**C46 Correlation is the conjugate product; coherence has modulus at most one** (partial).  Code: corrvir/correlate.c: correlate, coherence.  Modules: `Verif/Util/Correlate.lean`.
Theorems: `correlate_conj_product`, `coherence_modulus_partial`, `coherence_above_one`, `coherence_uninitialised`.  correlation proved for all inputs; coherence proved when no product of amplitudes equals the threshold, refuted on the threshold

**C47 Blocked transpose is the transpose and stays in the buffer** (partial).  Code: fdacrtmc/transpose.h: transpose_block, transpose_scalar_block.  Modules: `Verif/Util/Transpose.lean`.
Theorems: `transpose_correct_partial`, `transpose_overruns`, `transpose_shared_j_race`.  proved for multiples of the block size; overrun and data race shown otherwise

**C48 First-break tracking** (proved).  Code: marchenko/findFirstBreak.c: findFirstBreak.  Modules: `Verif/Marchenko/FirstBreak.lean`.
Theorems: `firstBreak_tracks`, `firstBreak_tracks_reversed`, `smooth`.  

**C49 String-to-number conversion never wraps** (partial).  Code: fdelmodc/atopkge.c: eatoh, eatou, eatoi, eatop, eatol, eatov.  Modules: `Verif/Getpar/Strto.lean`.
Theorems: `eatoi_exact_or_error`, `eatoh_exact_or_error`, `eatol_exact_or_error`, `unsigned_exact_or_error_partial`, `unsigned_wraps`, `stale_errno_rejects`.  signed conversions proved; unsigned conversions wrap negative texts; a stale errno makes valid texts fail

**C50 Output file names keep the base name** (partial).  Code: fdelmodc/name_ext.c: name_ext.  Modules: `Verif/Util/NameExt.lean`.
Theorems: `name_ext_partial`, `name_ext_plain`, `name_ext_other`, `names_differ`, `rec_names_partial`, `rec_names_differ_partial`, `name_ext_cut`, `name_ext_directory`, `name_ext_overflow`.  Holds if the suffix occurs only at the end of the name. The first occurrence is replaced, not the last, so `run.sub/shot.su` becomes `run_rvz.su` (name_ext_cut); a name without suffix in a directory with a point is cut at that point (name_ext_directory); names close to 1024 characters overflow (name_ext_overflow).

**C51 The interior of the model obeys the leapfrog scheme** (proved).  Code: fdelmodc/acoustic4.c: acoustic4; fdelmodc/boundaries.c: boundariesP, boundariesV.  Modules: `Verif/Fd/AcouInterior.lean`.
Theorems: `interior_velocity`, `interior_pressure`.  acoustic4 without source, exact arithmetic

**C52 Free surfaces carry no pressure** (proved).  Code: fdelmodc/boundaries.c: boundariesV.  Modules: `Verif/Fd/AcouInterior.lean`, `Verif/Fd/AcouSrcProps.lean`.
Theorems: `free_surface_pressure_zero`, `free_surface_source`.  acoustic4; the row and columns the code treats as free surface (Freed); with sources, at every element that is not saved for a source (free_surface_source)

**C53 Staggered differences are exact derivatives of smooth fields** (partial).  Code: fdelmodc/acoustic4.c: c1, c2; fdelmodc/elastic4.c: c1, c2; fdelmodc/boundaries.c: c1, c2.  Modules: `Verif/Fd/Consist.lean`.
Theorems: `derivative_exact_partial`, `acoustic_slope`, `acoustic_slope_wrong`.  exact for the Taylor coefficients; refuted for the optimised coefficients of acoustic4 (slope 0.99999964)

**C54 Compressed blocks decode to nearby values and fixed-rate blocks can be read in any order** (proved).  Code: zfp/src/template/encode.c: encode_block; zfp/src/template/decode.c: decode_block; zfp/src/template/encodei.c: zfp_encode_block; zfp/src/template/decodei.c: zfp_decode_block.  Modules: `Verif/Zfp/BlockProps.lean`.
Theorems: `int_blocks_round_trip`, `random_access`, `fixed_rate_encode`, `fixed_rate_decode`, `truncated_overflow`.  Integer blocks of 32 and 64 bit words in one to four dimensions. With overflow undefined the error bound needs the room stated in Keeps; without it decoding has undefined behaviour (truncated_overflow).

**C55 Compressed floating-point blocks stay within their bit budget and their tolerance** (partial).  Code: zfp/src/template/encodef.c: zfp_encode_block, fwd_cast, exponent_block; zfp/src/template/decodef.c: zfp_decode_block, inv_cast; zfp/src/template/codecf.c: precision.  Modules: `Verif/Zfp/FloatProps.lean`.
Theorems: `float_block_size`, `float_round_trip`, `float_accuracy_partial`, `accuracy_violated`, `tiny_block`, `budget_violated`, `room_float`, `room_double`.  Floating-point values are rationals and the rounding of the decoded value is a parameter. The tolerance is proved except when the common exponent is one below minexp; there it is exceeded (accuracy_violated). Blocks of tiny floats overflow the scale factor (tiny_block) and a maximum below the exponent bits is exceeded (budget_violated).

**C56 Rate, precision and tolerance settings do what they say** (partial).  Code: zfp/src/zfp.c: zfp_stream_set_rate, zfp_stream_set_precision, zfp_stream_set_accuracy.  Modules: `Verif/Zfp/HeaderProps.lean`, `Verif/Zfp/FloatProps.lean`.
Theorems: `set_accuracy`, `set_accuracy_block_partial`, `set_precision`, `set_rate`, `settings_fit`, `accuracy_violated`.  Settings proved in exact arithmetic. The tolerance of a block is proved except at one exponent, where it is exceeded (accuracy_violated).

**C57 A buffer of the maximum size always suffices** (partial).  Code: zfp/src/zfp.c: zfp_stream_maximum_size, zfp_compress, zfp_write_header.  Modules: `Verif/Zfp/ArrayProps.lean`.
Theorems: `int_maximum_size_partial`, `float_maximum_size_partial`, `maximum_size_wraps`, `maximum_size_violated`.  Proved for all contents, strides and parameters when the number of bits fits 64 bits, sizes are at most 2^32-4 and a float budget holds the exponent. Both exceptions are violated (maximum_size_wraps, maximum_size_violated). Integer magnitudes are below a quarter of the range, as the library documents.

**C58 Compressing and decompressing an array covers every element once and nothing else** (partial).  Code: zfp/src/template/compress.c: compress_strided; zfp/src/template/decompress.c: decompress_strided; zfp/src/template/encode2.c: gather, gather_partial; zfp/src/template/decode2.c: scatter, scatter_partial; zfp/src/template/encode.c: pad_block.  Modules: `Verif/Zfp/ArrayProps.lean`.
Theorems: `int_array_round_trip`, `float_array_round_trip_partial`, `default_strides`, `default_strides_violated`, `loop_never_ends`, `no_dimensions`.  All sizes up to 2^32-4 in one to four dimensions, any strides without overlap, serial execution. Violated beyond: default strides wrap (default_strides_violated), loops do not end (loop_never_ends), empty fields (no_dimensions).

**C59 An interface of makemod goes through the given points** (partial).  Code: utils/interpolation.c: interpolation; utils/polint.c: polint; utils/spline.c: spline, splint.  Modules: `Verif/Util/Interface.lean`.
Theorems: `linear_interface_partial`, `poly_interface_partial`, `spline_interface_partial`, `linear_interface_drifts`, `linear_interface_outside`, `linear_interface_one_point`.  Linear: proved for points on grid columns inside the model. Off the grid the interface drifts from the points (linear_interface_drifts), points left of the model are written in front of the array (linear_interface_outside), one point leaves the range unset (linear_interface_one_point). Polynomial and spline: proved for points inside the model.

**C60 Filling the model below or above an interface changes exactly the cells on that side** (partial).  Code: utils/grid.c: grid; utils/gridabove.c: gridabove; utils/linearint.c: linearint.  Modules: `Verif/Util/Makemod.lean`.
Theorems: `grid_below`, `grid_above_partial`, `grid_gradient_partial`, `grid_gradient_spills`, `grid_gradient_outside`, `grid_gradient_overshoots`, `grid_above_outside`.  Proved below the interface for all depths, above it when it lies inside the grid, with a gradient zone when it ends inside the grid. Otherwise the zone runs into the next column, past the grid or beyond the new value (the four witnesses).

**C61 A layered model has in every cell the value of the last layer that covers it** (partial).  Code: utils/makemod.c: main; utils/grid.c: grid; utils/interpolation.c: interpolation.  Modules: `Verif/Util/Makemod.lean`.
Theorems: `makemod_layers_partial`.  any list of interfaces on grid columns, linear interpolation, one velocity per layer, no gradient

**C62 Velocities given along an interface are interpolated between the points** (partial).  Code: utils/interpolation.c: interpolation.  Modules: `Verif/Util/Lateral.lean`.
Theorems: `lateral_one`, `lateral_two_partial`, `lateral_many_partial`, `lateral_shifts`, `lateral_two_outside`.  Proved for points on grid columns, at least two columns apart. Neighbouring points shift the velocities (lateral_shifts) and points off the grid write into the row of given velocities (lateral_two_outside).

**C63 Elements, iterators and pointers of compressed arrays** (partial).  Code: zfp/array/zfparray1.h, zfparray2.h, zfparray3.h: block, CacheLine::index, get, set; zfp/array/zfp/iterator2.h, iterator3.h: increment; zfp/array/zfp/pointer2.h.  Modules: `Verif/Zfp/Iterate.lean`.
Theorems: `elements1`, `elements2`, `elements3`, `array2_elements`, `array3_elements`, `iterator2`, `iterator3`, `pointer2`, `pointer2_wraps`, `blocks_wrap`.  Sizes up to 2^32-4 per dimension and, for pointers, fewer than 2^32 elements; outside these the 32-bit index arithmetic wraps (pointer2_wraps, blocks_wrap). Views and 3-D pointers are not modelled.

**C64 Elastic modelling stays inside its arrays** (partial).  Code: fdelmodc/elastic4.c: elastic4; fdelmodc/boundaries.c: boundariesP, boundariesV.  Modules: `Verif/Fd/ElaBounds.lean`.
Theorems: `elastic_in_bounds_partial`, `elastic_out_of_bounds`.  proved for a PML at the left (all other sides arbitrary); without it the property is false: the shear loop runs over the range of the normal stresses and reads vz before the array (elastic_out_of_bounds)

**C65 Elastic wave propagation is linear** (proved).  Code: fdelmodc/elastic4.c: elastic4; fdelmodc/boundaries.c: boundariesP, boundariesV.  Modules: `Verif/Fd/ElaLinear.lean`.
Theorems: `elastic_linear`, `elastic_rest`, `elastic_medium`.  elastic4 without source, exact arithmetic; the free-surface factor is read from an array (see Elastic4.lean)

**C66 Elastic modelling does not depend on the number or timing of threads** (partial).  Code: fdelmodc/elastic4.c: elastic4; fdelmodc/boundaries.c: boundariesP, boundariesV.  Modules: `Verif/Fd/ElaSched.lean`.
Theorems: `elastic_parSteps_eq_partial`, `elastic_parSteps_exists`, `elastic_wall_race`.  grids of at least 3 by 3 points; on a single row between rigid walls the loops race (elastic_wall_race); sources not modelled

**C67 Inside the model elastic modelling is the fourth-order staggered leapfrog scheme** (partial).  Code: fdelmodc/elastic4.c: elastic4; fdelmodc/boundaries.c: boundariesP, boundariesV.  Modules: `Verif/Fd/ElaInterior.lean`.
Theorems: `elastic_velocity`, `elastic_stress`, `elastic_shear_frozen`.  proved at all points the loops visit; the property is false in the last column and row of the shear stress without PML there: they are never updated (elastic_shear_frozen)

**C68 Elastic free surfaces are stress free** (proved).  Code: fdelmodc/boundaries.c: boundariesV.  Modules: `Verif/Fd/ElaInterior.lean`.
Theorems: `elastic_free_top`, `elastic_free_right`, `elastic_free_bottom`, `elastic_free_left`.  flat surface; where two free sides meet the later one in the program decides; the mirror condition two rows away needs two rows between the surfaces

**C69 Real transforms of power-of-two length are the discrete Fourier transform** (partial).  Code: FFTlib/lib_fft.c: rc1_fft, cr1_fft; FFTlib/fft_mayer.c: fht, realfft, realifft; FFTlib/trigtbl.h.  Modules: `Verif/Fft/MayerProps.lean`, `Verif/Fft/MayerLimits.lean`.
Theorems: `rc1_pow2_dft`, `cr1_pow2_dft`, `cr1_rc1_pow2`, `rc1_cr1_pow2`, `pow2_small_out_of_bounds`, `rc1_pow2_large_wrong`, `rc1_pow2_huge_out_of_bounds`.  proved for n = 4 ... 131072 with exact arithmetic and one thread; the property is false for n = 1, 2 (pow2_small_out_of_bounds) and from n = 262144 on (rc1_pow2_large_wrong, rc1_pow2_huge_out_of_bounds)

**C70 Tapered zones apply the taper of their depth** (proved).  Code: fdelmodc/boundaries.c: boundariesP; fdelmodc/elastic4.c: elastic4.  Modules: `Verif/Fd/ElaTaper.lean`.
Theorems: `elastic_taper_vx`, `elastic_taper_vz`.  elastic4 without source, exact arithmetic

**C71 Absorbing layers apply the convolutional PML recursion** (proved).  Code: fdelmodc/boundaries.c: boundariesP, boundariesV; fdelmodc/elastic4.c: elastic4.  Modules: `Verif/Fd/ElaPml.lean`.
Theorems: `elastic_pml_vx`, `elastic_pml_vz`, `elastic_pml_normal`, `elastic_pml_shear`.  elastic4 without source, exact arithmetic; the coefficients of the PML are parameters

**C72 Rigid walls mirror the normal velocity** (partial).  Code: fdelmodc/boundaries.c: boundariesP; fdelmodc/getParameters.c: getParameters.  Modules: `Verif/Fd/ElaWall.lean`.
Theorems: `elastic_wall_top`, `elastic_wall_bottom`, `elastic_wall_right`, `elastic_wall_left`, `elastic_bottom_wall_cuts`, `elastic_right_wall_cuts`, `elastic_bottom_wall_short`.  proved without taper or PML at the other sides; with them the property is false: the wall is not shifted with the model, so it cuts through the model (…_wall_cuts) and misses its last columns (elastic_bottom_wall_short)

**C73 Superposition of sources** (partial).  Code: fdelmodc/acoustic4.c: acoustic4; fdelmodc/applySource.c: applySource; fdelmodc/sourceOnSurface.c: storeSourceOnSurface, reStoreSourceOnSurface.  Modules: `Verif/Fd/AcouSource.lean`, `Verif/Fd/AcouShot.lean`, `Verif/Fd/AcouInject.lean`, `Verif/Fd/AcouSrcSched.lean`.
Theorems: `shoot_linear`, `shoot_silent`, `shoot_sum`, `shoot_single_partial`, `silent_source_matters`.  acoustic4, exact arithmetic; linearity and the sum over sources without restriction; that one of several sources acts like the same source alone is proved when no source is saved at a free surface (on a free surface it is false: a silent source takes its point out of the surface, silent_source_matters)

**C74 Delay and causality of a shot** (proved).  Code: fdelmodc/acoustic4.c: acoustic4; fdelmodc/boundaries.c: boundariesP, boundariesV; fdelmodc/sourceOnSurface.c: storeSourceOnSurface.  Modules: `Verif/Fd/AcouShot.lean`.
Theorems: `shoot_delay`, `shoot_causal`.  acoustic4, exact arithmetic, amplitudes per step as given (the wavelet interpolation is C30)

**C75 A source acts at its place with its strength** (partial).  Code: fdelmodc/acoustic4.c: acoustic4; fdelmodc/applySource.c: applySource; fdelmodc/sourceOnSurface.c: storeSourceOnSurface, reStoreSourceOnSurface.  Modules: `Verif/Fd/AcouSrcProps.lean`, `Verif/Fd/AcouSrcSched.lean`.
Theorems: `source_velocity`, `source_pressure`, `top_source_saved`, `free_surface_source`, `cleared_source_lost`, `bottom_source_lost`.  acoustic4, exact arithmetic; source types 1, 6, 7, 10, 12. False for monopoles on a free bottom or right side: they are wiped every step and generate no field at all (cleared_source_lost, bottom_source_lost)

**C76 Sources access only their arrays** (partial).  Code: fdelmodc/applySource.c: applySource; fdelmodc/sourceOnSurface.c: storeSourceOnSurface, reStoreSourceOnSurface; fdelmodc/getParameters.c: getParameters.  Modules: `Verif/Fd/AcouSrcSched.lean`.
Theorems: `source_in_bounds_partial`, `plane_wave_out_of_bounds`.  proved when all sources are inside the model; a plane wave or source array that extends past the left edge on a free top reads and writes before the pressure array in every step (plane_wave_out_of_bounds)

**C77 The prime-factor transform is the discrete Fourier transform** (proved).  Code: FFTlib/pfafft.c: pfacc, pfamcc, pfa2cc.  Modules: `Verif/Fft/PfaProps.lean`, `Verif/Fft/PfaRealProps.lean`.
Theorems: `pfamcc_dft`, `pfacc_dft`.  exact arithmetic; all 240 lengths, all strides that keep the transforms apart (Lay)

**C78 Real prime-factor transforms: spectrum, inverse and round trip** (proved).  Code: FFTlib/pfafft.c: pfarc, pfacr.  Modules: `Verif/Fft/PfaRealProps.lean`.
Theorems: `pfarc_dft`, `pfacr_dft`, `pfacr_pfarc`.  exact arithmetic; result and input are different arrays

**C79 The complex transform of the library is right for every length and every history** (proved).  Code: FFTlib/lib_fft.c: cc1_fft, ccm_fft; FFTlib/pfafft.c: pfacc, pfamcc; FFTlib/kiss_fft.c: kiss_fft.  Modules: `Verif/Fft/LibProps.lean`.
Theorems: `cc1_fft_dft`, `ccm_fft_dft`, `cc1_fft_roundtrip`.  exact arithmetic, one thread (two threads: C09)

**C80 The real transforms of the library are right for every length and every history** (partial).  Code: FFTlib/lib_fft.c: rc1_fft, cr1_fft, rcdft, crdft; FFTlib/pfafft.c: pfarc, pfacr; FFTlib/fft_mayer.c: realfft, realifft.  Modules: `Verif/Fft/LibProps.lean`.
Theorems: `rc1_fft_dft`, `cr1_fft_dft`, `cr1_rc1_fft`.  exact arithmetic, one thread; forward for all lengths but the powers of two 1, 2 and above 2^17 (FwdLen), inverse in addition not for even lengths without fast algorithm (InvLen), where it is wrong: C69 pow2_small_out_of_bounds, rc1_pow2_large_wrong, C10 crdft_rcdft_even_wrong

**C81 Several real traces are transformed each at its own place** (partial).  Code: FFTlib/lib_fft.c: rcm_fft, crm_fft; FFTlib/pfafft.c: pfa2rc, pfa2cr.  Modules: `Verif/Fft/Pfa2Props.lean`, `Verif/Fft/LibMany.lean`.
Theorems: `pfa2rc_dft`, `pfa2cr_dft`, `rcm_fft_dft_partial`, `crm_fft_dft_partial`, `crm_rcm_fft`, `rcm_fft_layout`, `rcm_fft_layout_wrong`.  proved when the half spectra are packed (ldc = n1/2+1, as all programs have it), or ldr differs from n1, or ldc from the number of traces; otherwise the fast branch stores them n1/2+1 apart instead of ldc (rcm_fft_layout_wrong)

**C82 A trace padded to the optimal length survives the transforms** (proved).  Code: FFTlib/optnumber.c: optncr; FFTlib/lib_fft.c: rc1_fft, cr1_fft.  Modules: `Verif/Fft/LibMany.lean`.
Theorems: `optncr_invLen`, `padded_roundtrip`.  exact arithmetic, one thread; up to 16384 samples (above that the recommended length can be too short: C05)

**C83 Panels to the frequency domain and back** (proved).  Code: FFTlib/xt2wx.c: xt2wx; FFTlib/wx2xt.c: wx2xt.  Modules: `Verif/Fft/PlaneProps.lean`.
Theorems: `xt2wx_spec`, `wx2xt_spec`, `wx2xt_xt2wx`.  exact arithmetic, one thread; lengths with a working inverse (InvLen, C80)

**C84 Panels to the wavenumber domain and back** (proved).  Code: FFTlib/xt2wkx.c: xt2wkx; FFTlib/wkx2xt.c: wkx2xt.  Modules: `Verif/Fft/PlaneProps.lean`.
Theorems: `xt2wkx_spec`, `wkx2xt_spec`, `wkx2xt_xt2wkx`.  exact arithmetic, one thread; lengths with a working inverse (InvLen, C80); samples between the traces are scaled too, as the theorem says

**C85 Two-dimensional transforms** (partial).  Code: FFTlib/cc2dfft.c: cc2dfft; FFTlib/rc2dfft.c: rc2dfft; FFTlib/cr2dfft.c: cr2dfft.  Modules: `Verif/Fft/Plane2Props.lean`.
Theorems: `cc2dfft_spec`, `cc2dfft_roundtrip`, `rc2dfft_spec_partial`, `cr2dfft_spec_partial`, `cr2dfft_rc2dfft`.  complex: all sizes; real: the layouts and lengths of C80 and C81

**C86 Volumes to the wavenumber domain and back** (proved).  Code: FFTlib/yxt2wkykx.c: yxt2wkykx; FFTlib/wkykx2yxt.c: wkykx2yxt.  Modules: `Verif/Fft/CubeProps.lean`.
Theorems: `yxt2wkykx_spec`, `wkykx2yxt_spec`, `wkykx2yxt_yxt2wkykx`.  exact arithmetic, one thread; lengths with a working inverse (InvLen, C80); the branch without MKL

**C87 Convolution of gathers** (proved).  Code: utils/fconv.c: convol, pad_data, scl_data.  Modules: `Verif/Conv/Props.lean`.
Theorems: `convol_spec`, `convol_wrap`, `convol_linear`, `convol_not_linear`.  exact arithmetic, one thread; convol_not_linear shows the wrap-around with two unit samples at the end of unpadded traces

**C88 Correlation and power of gathers** (partial).  Code: utils/fconv.c: corr, corr3, power.  Modules: `Verif/Conv/Props.lean`.
Theorems: `corr_spec`, `corr_lags`, `power_spec`, `corr3_spec`, `corr3_wrong`.  cor1, cor2 and pow as stated; false for cor3: it lacks the conjugate and gives the symmetric part of the convolution (corr3_spec, corr3_wrong)

**C89 Deconvolution of gathers** (partial).  Code: utils/fconv.c: deconv.  Modules: `Verif/Conv/Props2.lean`.
Theorems: `deconv_spec`, `convol_deconv`, `deconv_divides_by_zero`.  proved when no stabilised denominator is zero; with eps=reps=0 and a zero in the spectrum it divides by zero (deconv_divides_by_zero)

**C90 Coherence of gathers** (partial).  Code: utils/fconv.c: cohr.  Modules: `Verif/Conv/Props2.lean`.
Theorems: `cohr_spec_partial`, `cohr_uninitialised`.  proved when no amplitude product equals epsmax times the maximum; at such a tie the value of an uninitialised variable is used (cohr_uninitialised)

**C91 Pairing of gathers in fconv** (partial).  Code: utils/fconv.c: main.  Modules: `Verif/Conv/MainProps2.lean`, `Verif/Conv/MainProps3.lean`.
Theorems: `fconv_gathers`, `fconv_convolution`, `convTrace_linear`, `fconv_correlation`, `fconv_ntfft_partial`, `ntfft_overflows`, `ntfft_forgotten`, `later_gather_overflows`, `repeated_trace_lost`.  proved without ntfft when no gather exceeds the buffers and no gather after the end of the second file needs more traces than the buffer holds (Files); with ntfft for a single gather. False otherwise: ntfft above ntmax leaves an array (ntfft_overflows), later gathers ignore ntfft (ntfft_forgotten), a later gather larger than the first overflows the read buffer (later_gather_overflows), the single trace of the second file is not repeated for the traces a later gather has more (repeated_trace_lost)

**C92 Autocorrelation in fconv** (partial).  Code: utils/fconv.c: main.  Modules: `Verif/Conv/MainProps3.lean`.
Theorems: `auto_gathers_partial`, `auto_correlation_partial`, `auto_extra_traces`.  proved for gathers of equal size; a later gather with fewer traces is written with as many traces as the first (auto_extra_traces)

**C93 Medium parameters of the acoustic schemes** (proved).  Code: fdelmodc/readModel.c: readModel; fdelmodc/getParameters.c: getParameters.  Modules: `Verif/Med/Props.lean`.
Theorems: `medium_acoustic`, `moving_surface`.  exact arithmetic; positive densities

**C94 Medium parameters of the elastic schemes** (partial).  Code: fdelmodc/readModel.c: readModel; fdelmodc/getParameters.c: getParameters.  Modules: `Verif/Med/Props.lean`.
Theorems: `medium_elastic_partial`, `pml_roz_shifted`, `pml_roz_example`, `shear_wrong_density`.  proved for lambda+2mu, lambda, rox, and roz without PML; the property is false for roz with PML at the left or bottom: the first column and last row of the model are overwritten by their neighbours (pml_roz_shifted, pml_roz_example), and for the shear modulus where the density varies laterally: the moduli of the right-hand points are made with the density of the left-hand ones (shear_wrong_density)

**C95 Homogeneous and fluid models** (proved).  Code: fdelmodc/readModel.c: readModel.  Modules: `Verif/Med/Props.lean`.
Theorems: `homogeneous`, `shear_fluid`.  exact arithmetic

**C96 Quality factors are reached** (proved).  Code: fdelmodc/readModel.c: readModel.  Modules: `Verif/Med/Visco.lean`.
Theorems: `qp_reached`, `qs_reached`, `qs_ok`, `dissipative`.  real arithmetic; for shear where the formula does not divide by zero, which Qs >= Qp guarantees (qs_ok)

**C97 Stress relaxation of the visco-acoustic and visco-elastic schemes** (partial).  Code: fdelmodc/viscoacoustic4.c: viscoacoustic4; fdelmodc/viscoelastic4.c: viscoelastic4.  Modules: `Verif/Med/Relax.lean`.
Theorems: `va_relaxation_partial`, `va_many`, `modulus_multiplied`, `two_frequencies`, `ve_relaxation`, `ve_lossless_partial`.  exact arithmetic, at one grid point with the differences of the velocities given; one reference frequency. With several the acoustic modulus is multiplied by their number (modulus_multiplied, two_frequencies). Without attenuation the visco-elastic step is the elastic one where lam = l2m - 2*muu, which holds in homogeneous parts of the model (the muu array is shifted by half a cell)

**C98 Storage of the relaxation times and help variables** (partial).  Code: fdelmodc/readModel.c: readModel; fdelmodc/fdelmodc.c: main; fdelmodc/viscoelastic4.c: viscoelastic4.  Modules: `Verif/Med/Relax.lean`.
Theorems: `relax_stored`, `relax_overflow`, `shear_uninitialised`, `shear_last_column`.  storage proved for the visco-acoustic scheme; with the visco-elastic scheme and several reference frequencies the arrays are left (relax_overflow); the last row of the shear stress is updated with values that were never set (shear_uninitialised) and the last column not at all (shear_last_column)

**C99 Dispersion and stability check** (partial).  Code: fdelmodc/getModelInfo.c: getModelInfo; fdelmodc/getParameters.c: getParameters.  Modules: `Verif/Med/Info.lean`.
Theorems: `info_max`, `info_min`, `info_min_nonzero_partial`, `info_min_zero`, `courant_everywhere`, `wavelength_everywhere_partial`, `air_column_refused`, `slow_shear_accepted`.  real arithmetic. The Courant number and the maximum are proved for every file; the smallest non-zero value and the wavelength only if the first trace is not all zero: otherwise zero is reported (info_min_zero), an acoustic model with air in its first trace is refused (air_column_refused) and slow shear waves behind a fluid column pass unnoticed (slow_shear_accepted)

**C100 Accepted acoustic runs stay bounded** (partial).  Code: fdelmodc/acoustic2.c: acoustic2; fdelmodc/acoustic4.c: acoustic4; fdelmodc/acoustic6.c: acoustic6; fdelmodc/acoustic16.c: acoustic16; fdelmodc/getParameters.c: getParameters.  Modules: `Verif/Stab/Check.lean`, `Verif/Stab/Props.lean`, `Verif/Stab/Limit.lean`, `Verif/Stab/Contrast.lean`.
Theorems: `accepted_stable16`, `accepted_stable2_partial`, `stable4_partial`, `stable6_partial`, `stable_constant_density`, `stable_order2`, `unstable_homogeneous`, `unstable4`, `unstable6`, `accepted_unstable`, `stable_contrast`, `unstable_grain`, `no_time_step`, `accepted_unstable_density`.  real arithmetic, kernels without taper, PML, rigid walls and mirrored top, no source. Order 16: proved for constant density. Order 2: proved for all models strictly below the limit (the check admits equality). Orders 4 and 6: the property is false, the limit 0.606 of the check is above that of the coefficients (0.6033 and 0.5695): accepted runs exist in which arbitrarily small fields grow beyond every bound (accepted_unstable); below the true limit they are stable for constant density. With varying density orders 4, 6 and 16 are stable if the Courant number is small enough for the density contrast (stable_contrast), and for every time step there is a density model on which they are not (no_time_step); order 16 with contrast 1000 is accepted and unstable (accepted_unstable_density)

**C101 The second-order acoustic scheme updates the whole grid** (partial).  Code: fdelmodc/acoustic2.c: acoustic2.  Modules: `Verif/Stab/Order2.lean`.
Theorems: `inside`, `columns_missed`, `tall_outside`, `outside`.  the property is false: the columns are taken from the range of the rows. The update is proved for the columns ioZz..ieZz-1 (inside); without borders the first column and all columns beyond nz never move vertically (columns_missed), and models with two rows more than columns are updated outside the arrays (tall_outside)

**C102 Model files become the model** (partial).  Code: fdelmodc/readModel.c: readModel; fdelmodc/getModelInfo.c: getModelInfo.  Modules: `Verif/Med/Files.lean`.
Theorems: `files_read`, `zero_density_stops`, `short_file_undefined`.  all files have the same number of samples per trace. Proved for density and S velocity files with at least as many traces as the velocity file; with fewer the program only warns and uses values that were never set (short_file_undefined)

**C103 Hermitian Toeplitz systems are solved** (partial).  Code: extrap/lib/toeplitz.c: ztoeplitz, ctoeplitz, stoeplitz.  Modules: `Verif/Toep/Props.lean`.
Theorems: `toeplitz_solves`, `toeplitz_definite`, `toeplitz_stop`, `toeplitz_one`, `toeplitz_breaks_down`, `toeplitz_not_row`.  exact arithmetic. The coefficients are the first column; the comment in the source says first row (toeplitz_not_row). A regular system with a singular leading block is not solved (toeplitz_breaks_down), one equation reads beyond the coefficients (toeplitz_one)

**C104 Short extrapolation operators are optimal** (partial).  Code: extrap/lib/shortoper.c: shortoper; extrap/lib/trunc1D.c: trunc1D.  Modules: `Verif/Extrap/Weight.lean`, `Verif/Extrap/Props.lean`.
Theorems: `shortoper_best`, `wlsq_best`, `trunc1D_best`, `shortoper_undefined`, `trunc1D_even`.  exact arithmetic, filter=0. Proved for odd operator lengths from 3 and an even number of wavenumbers; with an odd number (which opercalc can choose) or a band beyond the Nyquist wavenumber weights that were never set are used (shortoper_undefined); an even operator length writes beyond the result (trunc1D_even)

**C105 Weights follow the band** (partial).  Code: extrap/lib/weightfunct.c: weightfunct; extrap/lib/kxwfilter.c: wrap.  Modules: `Verif/Extrap/Weight.lean`.
Theorems: `weightfunct_band`, `weightfunct_exact`, `weightfunct_odd`, `weightfunct_outside`, `weightfunct_unset`.  exact arithmetic. Proved for an even number of wavenumbers and a band that reaches between the Nyquist wavenumbers; otherwise weights stay unset or memory before the array is written (weightfunct_odd, weightfunct_unset, weightfunct_outside)

**C106 Phase-shift extrapolation is bounded** (proved).  Code: extrap/lib/kwExtr.c: kwExtr.  Modules: `Verif/Extrap/KwMain.lean`.
Theorems: `kwExtr_bounded`, `taper_bounds`.  exact arithmetic; the loop over frequencies, with the data already on the model grid

**C107 Phase-shift extrapolation gives the wave field of each depth** (partial).  Code: extrap/lib/kwExtr.c: kwExtr.  Modules: `Verif/Extrap/KwMain.lean`.
Theorems: `kwExtr_exact`, `kwField_energy`, `kwField_zero`, `kwExtr_leak`, `kwExtr_nyquist`.  exact arithmetic. Proved without padding and taper, where the number of wavenumbers is odd or no wave of the Nyquist wavenumber propagates. False otherwise: padded samples keep the field of the frequency before (kwExtr_leak), and a propagating wave of the Nyquist wavenumber is shifted twice (kwExtr_nyquist). Evanescent waves are kept without attenuation (kwField_energy)

**C108 The exact extrapolation operator** (proved).  Code: extrap/lib/forwExtr.c: forwExtr.  Modules: `Verif/Extrap/PhaseProps.lean`.
Theorems: `forwExtr_exact`, `phaseShift_modulus`.  exact arithmetic

**C109 The cubic between two points has the wanted values and slopes** (proved).  Code: extrap/lib/spline3.c: spline3.  Modules: `Verif/Extrap/PhaseProps.lean`.
Theorems: `spline3_interpolates`, `spline3_unset`.  exact arithmetic. For two equal points nothing is computed and the old coefficients stay (spline3_unset)

**C110 The smoothed extrapolation operator** (partial).  Code: extrap/lib/forwExtr.c: forwExtr_smooth; extrap/lib/spline3.c: spline3.  Modules: `Verif/Extrap/PhaseSmooth.lean`, `Verif/Extrap/PhaseProps.lean`.
Theorems: `forwExtrSmooth_exact`, `forwExtrSmooth_zero`, `forwExtrSmooth_symmetric`, `edge_slope`, `cwrap_odd`.  exact arithmetic; even numbers of wavenumbers. False for odd ones, which opercalc accepts: the final rotation is one sample off, so the element of wavenumber zero gets the value of wavenumber number one (cwrap_odd).

**C111 Travel times are set everywhere and bounded** (proved).  Code: raytime/vidale.c: vidale, near_source, side, corner.  Modules: `Verif/Ray/Head.lean`.
Theorems: `vidale_all`, `vidale_near`.  exact arithmetic. Source boxes of zero points are outside the theorem

**C112 Travel times scale with spacing and slowness** (proved).  Code: raytime/vidale.c: vidale, near_source, side, corner, rm_head.  Modules: `Verif/Ray/Scale.lean`.
Theorems: `vidale_scaled`.  exact arithmetic

**C113 Removal of head waves changes one layer only** (proved).  Code: raytime/vidale.c: rm_head.  Modules: `Verif/Ray/Head.lean`.
Theorems: `rmHead_top`, `rmHead_below`, `rmHead_above`, `rmHead_values`.  For a source in the top row nothing is changed

**C114 Amplitude from the mean velocity** (partial).  Code: raytime/raytime.c: main.  Modules: `Verif/Ray/Amp.lean`.
Theorems: `cpAverage_partial`, `cpAverage_constant`, `cpAverage_next`, `fdReceiver_ok`.  The points are on the grid and the amplitude is positive. False for the value: the sum of nr velocities is divided by nr-1, so the mean in a constant model is larger than its velocity (cpAverage_constant), and for a receiver next to the source the division is by zero (cpAverage_next).

**C115 As many receivers as counted** (proved).  Code: fdelmodc/recvPar.c: recvPar.  Modules: `Verif/Recv/Props.lean`.
Theorems: `recvPar_count`.  exact arithmetic

**C116 Receiver lines are filled evenly and stay on the grid** (partial).  Code: fdelmodc/recvPar.c: recvPar.  Modules: `Verif/Recv/Props.lean`, `Verif/Recv/Limits.lean`.
Theorems: `recvPar_lines`, `recvPar_lines_dx`, `recvPar_default`, `wanted_grid`, `vertical_slants`, `horizontal_overshoots`, `point_refused`, `negative_dx`, `too_many_dx`, `shared_spacing_unset`.  Proved for lines with dxrcv and dzrcv for each line, with one dxrcv or with none. False otherwise: a vertical line with dzrcv only slants by one column per receiver (vertical_slants); a spacing that does not fit can put the last receiver outside the grid (horizontal_overshoots); a line of one point is refused (point_refused); a negative dxrcv, more values than lines, and one dxrcv with one dzrcv for several lines use memory that is not theirs or not set (negative_dx, too_many_dx, shared_spacing_unset).

**C117 Receivers sit on the nearest grid point** (proved).  Code: fdelmodc/recvPar.c: recvPar.  Modules: `Verif/Recv/Limits.lean`.
Theorems: `recvPar_nearest`, `recvPar_points`, `array_not_clipped`.  exact arithmetic. Receivers of coordinate arrays are not kept on the grid (array_not_clipped).

**C118 Snapshots are written at the asked times, once each** (proved).  Code: fdelmodc/getParameters.c: getParameters; fdelmodc/writeSnapTimes.c: writeSnapTimes.  Modules: `Verif/Snap/Props.lean`.
Theorems: `shotSnaps_mem`, `shotSnaps_sorted`, `shotSnaps_all`, `file_all`, `snaPar_times`, `snap_time_error`.  exact arithmetic; the distance to the asked time grows with the number of the snapshot (snap_time_error).

**C119 A snapshot sample holds the field at its stated position** (partial).  Code: fdelmodc/writeSnapTimes.c: writeSnapTimes; fdelmodc/getParameters.c: getParameters.  Modules: `Verif/Snap/Limits.lean`, `Verif/Snap/Props.lean`.
Theorems: `snaPar_range`, `snapshot_values_partial`, `snapshot_wrong_column`, `withbnd_values`, `withbnd_same_position`, `withbnd_vz_out`, `withbnd_vx_out`.  The range is as asked. The samples are those of the column after the one in the header (snapshot_values_partial, snapshot_wrong_column). With borders the samples are complete when no shifted row is used, but all headers have the same position with an absorbing left side (withbnd_same_position) and elements outside the arrays are read (withbnd_vz_out, withbnd_vx_out).

**C120 Beams sum the absolute field at their points** (partial).  Code: fdelmodc/getBeamTimes.c: getBeamTimes, writeBeams.  Modules: `Verif/Snap/Limits.lean`.
Theorems: `beam_values_partial`, `beam_values`, `beam_position_wrong`.  Holds without absorbing left and top sides (beam_values). With them the field is taken npml columns and rows before the point (beam_values_partial). With skipdx > 1 the header positions are wrong (beam_position_wrong).

**C121 Common receiver gathers are complete** (proved).  Code: corrvir/corrvir.c: main.  Modules: `Verif/Vir/Sort.lean`.
Theorems: `gathers_sorted`, `gathers_overflow`.  With more receivers or sources than given the arrays are overrun (gathers_overflow); integers are unbounded.

**C122 A virtual source is the receiver nearest to the asked position** (partial).  Code: corrvir/corrvir.c: main.  Modules: `Verif/Vir/Select.lean`.
Theorems: `nearest_spec`, `nearest_exact`, `tolerance_ignored`, `tolerance_squared`, `scalco_zero`.  The nearest receiver is used (nearest_spec). A request outside the tolerance is used as well (tolerance_ignored), the tolerance is compared with the square of the distance (tolerance_squared), and with scalco=0 the first receiver is always taken (scalco_zero).

**C123 Exactly the selected common sources contribute to a virtual trace** (partial).  Code: corrvir/corrvir.c: main.  Modules: `Verif/Vir/Select.lean`.
Theorems: `pairs_spec`, `readTrace_swap`, `select_square_partial`, `select_square_wrong`, `select_donut_all`, `select_quadrant_line`, `select_unknown`.  Each common source that passes the test of the code contributes once (pairs_spec). The test itself is not the documented one: select_square_wrong, select_donut_all, select_quadrant_line, select_unknown.

**C124 A virtual trace is the stack of the cross-correlations** (proved).  Code: corrvir/corrvir.c: main, get_sutrace_at_position; corrvir/correlate.c: correlate, coherence.  Modules: `Verif/Vir/Trace.lean`.
Theorems: `corrvir_trace`, `virtualTrace_band`, `virtualTrace_stack`, `virtual_reciprocity`, `virtual_zero_lag`, `virtualTrace_few`, `virtualTrace_few_coherence`, `buffer_spec`.  Real arithmetic; 2*nt up to 16384; with fmax below the Nyquist frequency the stack is band-limited (virtualTrace_band). With cohr=1 and too few sources the program aborts (virtualTrace_few_coherence).

**C125 The result of corrvir does not depend on the schedule of the threads** (partial).  Code: corrvir/corrvir.c: main, get_sutrace_at_position.  Modules: `Verif/Vir/Threads.lean`.
Theorems: `read_together`, `read_race`, `write_perm`, `write_order`, `tracl_inj`.  Writing is right for all schedules (write_perm), reading would be with the critical section that is commented out (read_together); as it is, and nbm=0 is the default, a thread can get the trace of another one (read_race). The order in the file depends on the schedule (write_order), the number in the header restores it (tracl_inj).

**C126 Every documented choice of basop selects its operation** (partial).  Code: utils/basop.c: main.  Modules: `Verif/Basop/Simple.lean`.
Theorems: `dispatch_documented_partial`, `dispatch_numbers`, `chain_named`, `dispatch_fits`, `dispatch_defects`.  The documented scaletraces overruns the array of ten characters and killof selects nothing (dispatch_defects).

**C127 The frequency-domain operations of basop multiply by the right factor** (proved).  Code: utils/basop.c: timeShift, phaseRot, timeDiff, sqrtTimeDiff.  Modules: `Verif/Basop/Filter.lean`, `Verif/Basop/Shift.lean`.
Theorems: `timeFilter_spec`, `timeFilter_sinusoid`, `jom_sine`, `timeFilter_inverse`, `timeShift_whole`, `timeShift_zero`, `timeShift_alternating`.  Real arithmetic; lengths the transform library takes; fmax up to the Nyquist frequency. With the default band the component at the Nyquist frequency is dropped (timeShift_zero).

**C128 Hilbert transform and envelope** (partial).  Code: utils/basop.c: HilbertTrans, envelope.  Modules: `Verif/Basop/Analytic.lean`.
Theorems: `hilbertTrans_half_partial`, `hilbertTrans_cosine`, `envelope_partial`, `envelope_constant`.  hilb gives half the Hilbert transform (hilbertTrans_cosine); the envelope counts the mean and the Nyquist component twice (envelope_constant).

**C129 Conjugation reverses time** (partial).  Code: utils/basop.c: conjugate.  Modules: `Verif/Basop/Analytic.lean`.
Theorems: `conjugate_partial`, `conjugate_late`.  The trace comes out reversed but one sample later than the header says (conjugate_late).

**C130 Averages and rotations of basop** (partial).  Code: utils/basop.c: main, time_rotate.  Modules: `Verif/Basop/Simple.lean`.
Theorems: `rma_spec`, `rmat_spec`, `timeRotate_spec`, `timeRotate_negative`, `nrotOf_ignored_partial`, `nrotOf_trot`, `shiftF1_val`.  The averages and the rotation itself are right (timeRotate_spec, for 0 to nsam samples); the given nrot is ignored and trot is truncated to whole seconds (nrotOf_ignored_partial, nrotOf_trot); a rotation to the left leaves the array (timeRotate_negative); the time in the header accumulates over the gathers (shiftF1_val).

**C131 Padding in two directions keeps every sample in its trace** (partial).  Code: utils/basop.c: pad2d_data.  Modules: `Verif/Basop/Simple.lean`.
Theorems: `pad2d_flat`, `pad2d_good_partial`, `pad2d_misplaced`, `pad2d_uninitialised`.  Right only when the number of samples is not changed (pad2d_good_partial); otherwise traces are misplaced and part of the array keeps what was in the memory.

**C132 Exactly the named traces are killed** (partial).  Code: utils/basop.c: main, kill_traces.  Modules: `Verif/Basop/Simple.lean`.
Theorems: `killOffset_spec`, `killScan_numbers`, `killScan_empty`, `killTraces_spec`, `killTraces_shots`, `killTraces_shots_outside`, `killTraces_outside`.  Traces are counted from zero while shot numbers count from one. A last number without a separator is not read (killScan_numbers), an empty line kills trace 0 (killScan_empty), numbers are not checked (killTraces_outside, killTraces_shots_outside).

**C133 Reading a gather delivers exactly the traces of the gather** (partial).  Code: utils/readData.c: readData; utils/writeData.c: writeData.  Modules: `Verif/Su/Props.lean`.
Theorems: `cut_exists`, `readData_spec`, `readData_truncated`, `readData_overrun`, `readData_pipe`.  Holds on files when the gather fits in the arrays; the number of traces is not checked (readData_overrun) and on a pipe the first header of the next gather is lost, since the step back fails unnoticed (readData_pipe).

**C134 A filter program writes the result of every gather** (partial).  Code: utils/basop.c: main; utils/smooth.c: main; utils/getFileInfo.c: getFileInfo.  Modules: `Verif/Su/Props.lean`.
Theorems: `filter_spec_partial`, `fileInfo_spec`, `filter_larger_gather`, `filter_pipe_one`, `filter_pipe_two`.  Holds when no gather is larger than the first one or large enough sizes are given (filter_spec_partial); otherwise the arrays are overrun (filter_larger_gather), and from a pipe only files with one gather work.

**C135 Smoothing replaces every sample by the average around it** (partial).  Code: utils/smooth.c: rSmooth, main.  Modules: `Verif/Su/Smooth.lean`.
Theorems: `odd_spec`, `rSmooth_spec`, `rSmooth_plain`, `rSmooth_bounds`, `rSmooth_constant`, `pw_inverse`, `pw_sign`, `rSmooth_one`.  Proved in full for real arithmetic, except that a power other than one loses the sign of negative data (pw_sign).

**C136 The receiver files of a run hold the records of all shots** (partial).  Code: fdelmodc/fdelmodc.c: main; fdelmodc/writeRec.c: writeRec; utils/name_ext.c: name_ext.  Modules: `Verif/Fd/RunFiles.lean`.
Theorems: `run_files_partial`, `expected_numbered`, `header_positions`, `expected_ns`, `run_split`, `expected_gathers`.  Proved when the record of a shot fits in one file (run_files_partial); when it is split over several files the arrays are overrun (run_split), and the header word for the number of samples is wrong from 65536 samples (expected_ns).  Not modelled: separation in up and down going fields, several processes, negative start times.

**C137 The source plays the wavelet of the file** (partial).  Code: fdelmodc/defineSource.c: defineSource; fdelmodc/getParameters.c: getParameters.  Modules: `Verif/Fd/Wavelet.lean`.
Theorems: `wavelet_played_partial`, `band_sample`, `plays_exists`, `plays_unique`, `wavelet_plain`, `wavelet_alternates`, `wavelet_silent_wrong`.  Proved for wavelets with nothing at the Nyquist frequency and lengths with a fast transform; for even lengths after interpolation without one, a value that does not depend on the wavelet is subtracted from every second sample (wavelet_alternates, wavelet_silent_wrong).

**C138 The wavelet keeps its time scale and its small samples** (partial).  Code: fdelmodc/getParameters.c: getParameters; fdelmodc/defineSource.c: defineSource.  Modules: `Verif/Fd/Wavelet.lean`.
Theorems: `resample_steps`, `resample_compressed`, `resample_stretched`, `cutSmall_near`, `cutSmall_silenced`, `cutSmall_last_silent`.  The time scale is right exactly when the step of the wavelet is a multiple of that of the modelling (resample_steps); otherwise it is compressed or stretched.  The small samples of all wavelets are judged by the last one (cutSmall_silenced).

**C139 Padding a model keeps the model** (partial).  Code: utils/padmodel.c: main.  Modules: `Verif/Util/PadModel.lean`.
Theorems: `padmodel_partial`, `padmodel_edges`, `padmodel_value`, `padmodel_bottom_lost`, `padmodel_value_misplaced`, `origin_kept`.  True without padding in depth.  With it, the deepest samples of the model are lost (padmodel_bottom_lost), and with a value the padding above the model is zero (padmodel_value_misplaced).

**C140 Truncating a model** (partial).  Code: utils/truncate.c: main.  Modules: `Verif/Util/PadModel.lean`.
Theorems: `truncate_spec`, `truncate_last`, `truncate_first_refused`.  True for depths between the first and last sample; one sample beyond the last is accepted and memory outside the data is read, the first sample is refused.

**C141 The peak of a wavelet** (partial).  Code: utils/freqwave.c: freqwave; utils/makewave.c: main.  Modules: `Verif/Util/FreqWave.lean`.
Theorems: `freqwave_peak`, `freqwave_scaled`, `freqwave_unscaled`, `freqwave_g1`, `gauss_positive`, `tpeak_shift`, `tpeak_plain`, `kind_chosen`, `kind_names`.  Proved for kinds without phase and peaks at a sample, up to 16384 samples; the derivative of a Gaussian is zero at t0 (freqwave_g1); if all samples are negative the smallest becomes scale (freqwave_scaled).  Not modelled: cs, inverse=2, shift of fw.

**C142 The spectrum of a wavelet** (partial).  Code: utils/freqwave.c: freqwave, gauss0freq, gauss1freq, gauss2freq.  Modules: `Verif/Util/FreqWave.lean`.
Theorems: `shape_peak`, `shape_peak_g0`, `peak_attenuated`, `sqrtg2_ratio`, `sqrtg2_not_attenuated`, `invert_spec`.  True for g0, g1 and g2; sqrtg2 reaches half of the dB asked for.

**C143 Frequencies that do not fit are refused** (partial).  Code: utils/freqwave.c: freqwave.  Modules: `Verif/Util/FreqWave.lean`.
Theorems: `freqwave_peak`, `freqwave_unscaled`, `mon_ub`, `mon_default_ub`, `mon_above_ub`, `fw_ub`.  Frequencies within the band never give an access outside the arrays (freqwave_unscaled); w=mon without fp writes before the spectrum, at one frequency above it behind, and w=fw with fp and fmax above the Nyquist frequency behind it.

**C144 Primaries sample by sample** (partial).  Code: marchenko/marchenko_primaries.c: main.  Modules: `Verif/Marchenko/Primaries.lean`.
Theorems: `primaries_each`, `primaries_reuse_partial`, `reuse_fixed`, `reuse_actual`, `primaries_reuse_wrong`, `primaries_reuse_ub`, `early_abrupt`, `early_keeps`.  True with niterskip=1.  With reuse it holds when the last samples of the padded traces are zero; otherwise the data enters forward in time (reuse_actual, primaries_reuse_wrong), and samples up to shift make the program write outside an array (primaries_reuse_ub).  The taper at the end of the causal window acts on zeros (early_abrupt).  Not modelled: plane waves, several focal points.

**C145 Removed multiples complement the primaries** (partial).  Code: marchenko/marchenko_primaries.c: main.  Modules: `Verif/Marchenko/Primaries.lean`.
Theorems: `update_complement`, `update_counted_twice`.  True with niterskip=1 or niterec of 2 or 3; with 4 or more the removed part is counted several times.

**C146 Split of the focusing function in u and v** (partial).  Code: marchenko/marchenko_primaries.c: main.  Modules: `Verif/Marchenko/Primaries.lean`.
Theorems: `split_min`, `taper_sum`, `vmin_ub`.  True from shift on, for samples not before shift; before that the program writes in front of the array (T=0).

**C147 Picked arrivals of focusing operators** (partial).  Code: marchenko/readTinvData.c: readTinvData; marchenko/fmute.c: findMax.  Modules: `Verif/Marchenko/Picks.lean`, `Verif/Marchenko/FirstBreak.lean`.
Theorems: `tinv_picks`, `fmute_picks`, `smooth`, `drift`, `tinv_picks_ub`, `fmute_itb_ignored`.  Proved while hw times the number of traces is at most the length of a trace; on traces without signal the picks run away by hw per trace (Tracked.drift).  A source in front of the first trace makes readTinvData read before the data (tinv_picks_ub); itb is ignored when the largest sample near it is at itb (fmute_itb_ignored).

**C148 fmute mutes every gather** (partial).  Code: marchenko/fmute.c: main.  Modules: `Verif/Marchenko/Picks.lean`.
Theorems: `fmute_each`, `fmute_file_ub`, `fmute_wider_ub`.  True without file_mute for gathers not wider than the first; with file_mute the program reads from a closed file after the first gather.

**C149 Correlation by mdd** (partial).  Code: MDD/deconvolve.c: deconvolve; MDD/mdd.c: main; MDD/readShotData.c: readShotData.  Modules: `Verif/Mdd/Props.lean`, `Verif/Mdd/Defects.lean`.
Theorems: `correlation_partial`, `pass_through`, `corr_more_stop`, `fewer_traces_fails`, `more_traces_mixed`.  Proved for the same number of traces per shot in both files (and square data where conjgA transposes A or conjgB=0 does not transpose B).  With fewer traces in A no run succeeds, with more BLAS stops it (mdd=0) or frequencies overwrite each other (mdd=1).

**C150 Deconvolution by mdd solves the damped equations** (partial).  Code: MDD/deconvolve.c: deconvolve.  Modules: `Verif/Mdd/Props.lean`, `Verif/Mdd/Defects.lean`.
Theorems: `mdd1_normal_partial`, `mdd1_actual`, `mdd2_solves_partial`, `mdd2_shots_ub`, `conjgA_wrong`.  Proved for the default conjgA=0, conjgB=1 and equal numbers of traces; mdd1_actual says what other options compute: conjgA is applied a second time to the product (conjgA_wrong).  mdd=2 overruns its scratch matrix when there are more shots than traces.

**C151 Transmission series** (partial).  Code: MDD/deconvolve.c: deconvolve.  Modules: `Verif/Mdd/Defects.lean`.
Theorems: `transmission_actual`, `transmission_sign`, `transmission_even`.  False: the sign is chosen by k_iter, not by the term.  The theorem gives what is computed for all sizes and k_iter.

**C152 LSQR operators** (partial).  Code: MDD/deconvolve.c: Aprod1_, Aprod2_; MDD/zlsqrModule.F90: zLSQR.  Modules: `Verif/Mdd/Defects.lean`.
Theorems: `lsqr_adjoint`, `aprod1_adds`, `aprod2_overwrites`, `lsqr_step_wrong`.  The operators are adjoint and Aprod1 meets its contract; Aprod2 clears x first and therefore never meets it.

**C153 Damped inverse and least squares** (partial).  Code: MDD/computeMatrixInverse.c: computeMatrixInverse; MDD/deconvolve.c: deconvolve.  Modules: `Verif/Mdd/Inverse.lean`, `Verif/Mdd/LeastSquares.lean`.
Theorems: `cholesky_inverse`, `lu_inverse`, `svd_penrose`, `svd_inverse`, `mdd_least_squares_partial`.  LAPACK's routines enter by their contracts; exact arithmetic.  mdd_least_squares_partial is for equal numbers of traces, default conjgA/conjgB, rthm=0.  rthm=6 (documented as not working) is not modelled.

**C154 Plane-wave window** (proved).  Code: marchenko/applyMute_plane.c: applyMute_plane; marchenko/mapj.c: mapj.  Modules: `Verif/Mute/PlaneProps.lean`.
Theorems: `plane_theta_window`.  For mute times within one trace length of time zero and a window with room for its tapers.

**C155 Odd-iteration window is the time reverse of the even one** (proved).  Code: marchenko/applyMute_plane.c: applyMute_plane; marchenko/applyMute_tshift.c: applyMute_tshift.  Modules: `Verif/Mute/PlaneProps.lean`.
Theorems: `plane_odd_reverses_even`, `tshift_is_plane`.  Window 1 (Theta); also where the tapers overlap.

**C156 Theta and Psi plane-wave windows are complementary** (partial).  Code: marchenko/applyMute_plane.c: applyMute_plane.  Modules: `Verif/Mute/PlaneProps.lean`.
Theorems: `plane_theta_psi_partial`, `plane_theta_psi_lose`, `plane_one_sided_complementary`.  False with a taper: around the negative end the two tapers lie on different sides of the cut and 2*smooth samples are attenuated (plane_theta_psi_lose).  True elsewhere, and for the one-sided windows 11/44.

**C157 Conventional reverse time migration image** (proved).  Code: fdacrtmc/fdacrtmc.c: main; fdacrtmc/extractMigrationSnapshots.c: extractMigrationSnapshots; fdacrtmc/rtmImagingCondition.c: rtmImagingCondition.  Modules: `Verif/Rtm/Props.lean`.
Theorems: `rtm_conventional`.  For all wavefields given per step; the wave propagation that makes them is the subject of other claims.

**C158 Poynting-vector imaging** (partial).  Code: fdacrtmc/rtmImagingCondition.c: rtmImagingCondition; fdacrtmc/extractMigrationSnapshots.c: extractMigrationSnapshots.  Modules: `Verif/Rtm/Props.lean`.
Theorems: `poynting_image_partial`, `poynting_shift`, `poynting_orient_opposite`, `decomposition_zero`.  The image is proved exactly as the program makes it; it is not the stated one: the source flux uses the velocities of the next grid point (poynting_shift), the two orientations use opposite signs (poynting_orient_opposite), mode 3 gives zero (decomposition_zero).

**C159 Sampling of the image** (proved).  Code: fdacrtmc/getParameters.c: getParameters.  Modules: `Verif/Rtm/Props.lean`.
Theorems: `axis_points`, `image_on_model`, `axis_zero`.  Integer division by zero for spatial steps below half the grid step (axis_zero).

**C160 Hilbert imaging separates up and down going waves** (partial).  Code: fdacrtmc/rtmImagingCondition.c: rtmImagingCondition.  Modules: `Verif/Rtm/Hilbert.lean`.
Theorems: `hilbert_updown`, `conventional_cosines`, `hilbert_leftright_overrun`, `hilbert_leftright_flat`.  Up-down proved for sums of waves below Nyquist without taper; left-right is false: the row arrays are read at the depth index (hilbert_leftright_overrun, hilbert_leftright_flat).

**C161 Plane-wave imaging pairs equal times** (partial).  Code: fdacrtmc/PlaneWaveDecomposition.c: PlaneWaveDecompositionUpDownRTMImagingCondition; fdacrtmc/extractMigrationSnapshots.c: extractMigrationSnapshots; fdacrtmc/fdacrtmc.c: main.  Modules: `Verif/Rtm/Hilbert.lean`.
Theorems: `plane_aligned_partial`, `plane_misaligned`, `plane_mute_overrun`.  True iff the image step is the modelling step or does not divide the number of steps; the muting overruns for every even number of snapshots.

**C162 vmar solves the Marchenko equations by the truncated series** (partial).  Code: vmar/Marchenko_Iterations.c: Marchenko_Iterations; vmar/vmar.c: main.  Modules: `Verif/Vmar/Props.lean`.
Theorems: `vmar_up`, `vmar_down`, `vmar_series_partial`.  Square geometry, exact arithmetic; needs the traces left over in the work array to have no energy outside the frequency band (see C164).

**C163 Green's functions of vmar** (partial).  Code: vmar/Marchenko_Iterations.c: Marchenko_Iterations.  Modules: `Verif/Vmar/Props.lean`.
Theorems: `green_plus_partial`, `green_plus_stale`, `green_plus_wrong`, `green_plus_single`.  True for the second half of the samples and for the single-shot version; in the first half the focusing function of before the update is used (green_plus_stale, green_plus_wrong).

**C164 vmar gives the same result for any number of threads** (partial).  Code: vmar/Marchenko_Iterations.c: Marchenko_Iterations.  Modules: `Verif/Vmar/Props.lean`.
Theorems: `threads_partial`, `threads_matter`.  False in general: frequencies outside the band come from the last trace the thread transformed (threads_matter).

**C165 Single-shot vmar stays inside its arrays** (partial).  Code: vmar/Marchenko_Iterations.c: Marchenko_Iterations.  Modules: `Verif/Vmar/Props.lean`.
Theorems: `single_bounds`, `single_mixes`.  True exactly if there are at most as many shots as stations.

**C166 Output positions of the 3D synthesis** (partial).  Code: marchenko3D/synthesis3D.c: synthesisPositions3D.  Modules: `Verif/M3D/Positions.lean`.
Theorems: `line_complete_partial`, `raster_complete_partial`, `pos_nearest`, `position_lost`, `position_repeated`, `positions_overflow`.  Complete for lines and rasters in order; lost, repeated or too many positions otherwise (position_lost, position_repeated, positions_overflow).

**C167 The 3D synthesis integral** (proved).  Code: marchenko3D/synthesis3D.c: synthesis3D.  Modules: `Verif/M3D/Synth.lean`.
Theorems: `synthesis3D_integral`.  For receivers and sources on the grid of the operators; others are read outside the arrays.

**C168 Mute windows of the 3D program** (partial).  Code: marchenko3D/applyMute3D.c: applyMute3D.  Modules: `Verif/M3D/Mute.lean`.
Theorems: `theta3D_partial`, `theta3D_leak`, `theta3D_late`, `psi3D_partial`, `oneSided3D`, `band3D`.  True for above=1,-1,2; the windows 0, -2 and 4 leave one or two samples of the muted zone at full value (theta3D_leak, psi3D_partial).

**C169 Image of marchenko3D** (proved).  Code: marchenko3D/imaging3D.c: imaging3D.  Modules: `Verif/M3D/Amp.lean`.
Theorems: `imaging_spec`.  3 to 16384 samples; the static tables of the transforms are those of one thread.

**C170 Cost of marchenko3D** (partial).  Code: marchenko3D/Cost3D.c: Cost3D.  Modules: `Verif/M3D/Amp.lean`.
Theorems: `cost_partial`, `cost_lost_update`.  One focal point; with more the shared sum loses updates (cost_lost_update).

**C171 Amplitude estimate of marchenko3D** (partial).  Code: marchenko3D/ampest3D.c: AmpEst3D.  Modules: `Verif/M3D/Amp.lean`.
Theorems: `ampEst_partial`, `ampEst_value`, `ampEst_accumulates`.  True with a wavelet file or for one focal point; otherwise the energies of all earlier focal points are included (ampEst_value, ampEst_accumulates).

**C172 Amplitudes are applied to their own focal point** (partial).  Code: marchenko3D/marchenko3D.c: main.  Modules: `Verif/M3D/Amp.lean`.
Theorems: `amp_applied`, `amp_green_partial`, `amp_green_wrong`.  True for the focusing functions; the Green's function only for one line or one focal point (amp_green_wrong).

**C173 Scale factor of the reflection data** (partial).  Code: marchenko3D/marchenko3D.c: main.  Modules: `Verif/M3D/Amp.lean`.
Theorems: `scale_partial`, `scale_off`, `scale_quiet`, `scale_one_iteration`.  Needs verbose, two iterations, two factors, none zero; without verbose the step is never set (scale_quiet), with one iteration the factor is not (scale_one_iteration).

**C174 Accesses of the 3D acoustic step** (partial).  Code: fdelmodc3D/acoustic4_3D.c: acoustic4_3D; fdelmodc3D/getParameters3D.c: getParameters3D.  Modules: `Verif/Fd3/Props.lean`.
Theorems: `sweeps_in_bounds`, `step_in_bounds`.  The sweeps for all settings, the whole step for sides without taper, PML or rigid wall; those parts of boundaries3D.c are not modelled.

**C175 Leapfrog update in three dimensions** (partial).  Code: fdelmodc3D/acoustic4_3D.c: acoustic4_3D; fdelmodc3D/boundaries3D.c: boundariesP3D, boundariesV3D.  Modules: `Verif/Fd3/Props.lean`.
Theorems: `velocity_update`, `pressure_update`, `step_spec`.  The sweeps for all settings, the whole step for sides without taper, PML or rigid wall; sources are not modelled.

**C176 The 3D step does not depend on the threads** (partial).  Code: fdelmodc3D/acoustic4_3D.c: acoustic4_3D; fdelmodc3D/boundaries3D.c: boundariesP3D.  Modules: `Verif/Fd3/Props.lean`.
Theorems: `sweeps_schedule`, `step_schedule_partial`, `step_schedule_barrier`, `free_surface_race`.  True when the top is not free, or with a barrier; with a free top and no taper the pressure sweep reads vz while other threads mirror it (free_surface_race).

**C177 Superposition in three dimensions** (partial).  Code: fdelmodc3D/acoustic4_3D.c: acoustic4_3D.  Modules: `Verif/Fd3/Props.lean`.
Theorems: `step_linear`.  Sides without taper, PML or rigid wall; exact arithmetic.

**C178 Accesses of the 3D elastic sweeps** (proved).  Code: fdelmodc3D/elastic4_3D.c: elastic4_3D; fdelmodc3D/getParameters3D.c: getParameters3D.  Modules: `Verif/Fd3/ElasticProps.lean`.
Theorems: `elastic_in_bounds`.  The loops over the grid; sources and boundary conditions are not part of the claim.

**C179 Newton's and Hooke's laws in three dimensions** (partial).  Code: fdelmodc3D/elastic4_3D.c: elastic4_3D.  Modules: `Verif/Fd3/ElasticProps.lean`.
Theorems: `elastic_velocity_update`, `elastic_stress_update`, `elastic_grids`, `elastic_linear`.  Exact arithmetic instead of float.

**C180 The 3D elastic sweeps do not depend on the threads** (proved).  Code: fdelmodc3D/elastic4_3D.c: elastic4_3D.  Modules: `Verif/Fd3/ElasticProps.lean`.
Theorems: `elastic_schedule`.  The loops over the grid; sources and boundary conditions are not part of the claim.

**C181 Elastic modelling of a fluid is acoustic modelling** (partial).  Code: fdelmodc3D/elastic4_3D.c: elastic4_3D; fdelmodc3D/acoustic4_3D.c: acoustic4_3D.  Modules: `Verif/Fd3/ElasticProps.lean`.
Theorems: `elastic_fluid`.  The loops over the grid, exact arithmetic.

**C182 Windows of snapshot files** (proved).  Code: utils/readSnapData3D.c: readSnapData3D.  Modules: `Verif/Snap/ReshapeProps.lean`.
Theorems: `window_read`, `window_outside`.  The file has all its samples.

**C183 Reshaping is an exchange of dimensions** (proved).  Code: utils/reshape_su.c: main.  Modules: `Verif/Snap/ReshapeProps.lean`.
Theorems: `reshape_exchanges`, `reshape_twice`.  

**C184 Headers of reshaped data** (partial).  Code: utils/reshape_su.c: main.  Modules: `Verif/Snap/ReshapeProps.lean`.
Theorems: `header_twice`, `header_time`, `header_position_partial`, `header_position_metres`.  Positions keep their meaning only for scalco=-1000: violated otherwise.

**C185 Snapshots to gathers** (proved).  Code: utils/snap2shot.c: main.  Modules: `Verif/Snap/ReshapeProps.lean`.
Theorems: `shots_transpose`.  

**C186 Names of numbered snapshot files** (partial).  Code: utils/snap2shot.c: main.  Modules: `Verif/Snap/ReshapeProps.lean`.
Theorems: `names_one_digit_partial`, `names_more_digits`, `names_absent`, `names_wrong_digit`.  Holds when the first number has one digit; violated for two or more digits, for names without the number and when the digit occurs earlier in the name.

**C187 Muting of a homogeneous Green's function around time zero** (partial).  Code: utils/mutesnap.c: main.  Modules: `Verif/Snap/MuteProps.lean`.
Theorems: `centre_weights`, `centre_symmetric`, `centre_zone`, `centre_twice`.  Exact arithmetic; the centre of an even number of snapshots can get the taper twice.

**C188 Muting of the start of snapshots** (partial).  Code: utils/mutesnap.c: main.  Modules: `Verif/Snap/MuteProps.lean`.
Theorems: `start_outside`, `start_clear_partial`.  Holds for smooth=0 only: with a taper the program reads before the array of the taper.

**C189 First arrivals of snapshots** (proved).  Code: utils/mutesnap.c: topdet; utils/mutesnap.c: farrdet.  Modules: `Verif/Snap/MuteProps.lean`.
Theorems: `topdet_first_max`, `farrdet_first`.  No NaN; the tolerance search answers 0 when nothing is above the tolerance.

**C190 Two files of the same volume are accepted** (partial).  Code: utils/mutesnap.c: main; utils/getFileInfo3D.c: getFileInfo3D.  Modules: `Verif/Snap/MuteProps.lean`.
Theorems: `same_volume_refused`, `accepts_iff`.  Violated: the numbers of columns and lines of one file are exchanged.

**C191 Accesses of the electromagnetic kernel** (partial).  Code: fdemmodc/em4.c: em4; fdemmodc/getEmParameters.c: getParameters.  Modules: `Verif/Em/Em4Props.lean`.
Theorems: `em_in_bounds`, `em_order_two`.  Holds for iorder of at least 4; iorder=2 always reads outside. Sources and boundary conditions are not part of the claim.

**C192 Maxwell's equations on the grid, for every schedule** (partial).  Code: fdemmodc/em4.c: em4.  Modules: `Verif/Em/Em4Props.lean`.
Theorems: `em_update`, `em_schedule`, `em_other_thread`.  Holds if each row is handled by one thread in the three loops (static schedule), which the code does not ask for; exact arithmetic; the loops over the grid only.

**C193 Electromagnetic constants** (partial).  Code: fdemmodc/em4.c: em4; fdemmodc/readEmModel.c: readEmModel; fdemmodc/getEmParameters.c: getParameters.  Modules: `Verif/Em/Em4Props.lean`.
Theorems: `mu0_ten_times`, `velocity_right`.  The velocity is right; the magnetic constant is ten times too large.

**C194 Combining snapshot files** (partial).  Code: utils/combine.c: main.  Modules: `Verif/Snap/CombineProps.lean`.
Theorems: `combine_planes`, `combine_stacks_partial`, `combine_thick`.  What is written is proved for files of any thickness; it is the stack only for files one sample thick in the stacking direction. Thicker files overwrite each other and leave zeros.

**C195 Names and positions of combine** (partial).  Code: utils/combine.c: main.  Modules: `Verif/Snap/CombineProps.lean`.
Theorems: `combine_name_partial`, `combine_name_more`, `combine_gx_partial`, `combine_gx_wrong`.  Names are right for a first number of one digit, positions for whole metres; otherwise wrong.

**C196 Shapes of diffractors** (partial).  Code: utils/diffraction.c: makesquare, makediamond, makecircle; utils/makemod.c: main.  Modules: `Verif/Util/ShapesProps.lean`.
Theorems: `diamond_cells`, `circle_cells`, `square_cells`, `diamond_circle_symmetric`, `square_size`, `square_one_empty`.  The cells are determined for the three kinds. Squares are not centred, odd widths are one point too small, and a square of width 1 is empty.

**C197 Bodies stay in the model** (partial).  Code: utils/diffraction.c: diffraction; utils/elipse.c: elipse.  Modules: `Verif/Util/ShapesProps.lean`.
Theorems: `diffraction_point`, `diffraction_edge`, `ellipse_cells`.  Ellipses (without random perturbation) are right; diffractors only if they are inside the model, which is not checked.

**C198 Extending a model in the third dimension** (partial).  Code: utils/extend3D.c: main.  Modules: `Verif/Util/Extend3D.lean`.
Theorems: `extend_shifts`, `extend_outside`.  Holds for interfaces on a sample of the model; others make the program leave its arrays.

**C199 Replacing values** (proved).  Code: utils/changevalue.c: main.  Modules: `Verif/Util/Extend3D.lean`.
Theorems: `change_samples`, `change_twice`.  Samples; a file whose traces differ in length is misread (not modelled).

**C200 Summing delayed snapshot files** (partial).  Code: utils/combine_induced.c: main.  Modules: `Verif/Snap/Induced.lean`.
Theorems: `induced_sum_partial`, `induced_even`, `induced_many_files`.  Holds for one thread, muting, an odd number of snapshots and at most as many files as traces; with an even number of snapshots, or more files, the program leaves its arrays.

**C201 The sum does not depend on the threads** (partial).  Code: utils/combine_induced.c: main.  Modules: `Verif/Snap/Induced.lean`.
Theorems: `induced_no_overlap`, `induced_race`.  False: the shared sum is updated without synchronisation. Threads that do not overlap give the sum; a schedule that loses all files but one is proved for any number of files. Model of one element.

**C202 Response of a layered medium** (partial).  Code: utils/makeR1D.c: main.  Modules: `Verif/Snap/R1D.lean`.
Theorems: `response_right_partial`, `response_small_spacing`, `response_one_sided`, `response_factor`, `response_fraction`.  Holds for records centred at their source with a spacing of whole metres and all positions used; false otherwise.

**C203 Wavenumber filter of basop** (partial).  Code: utils/kxwfilter.c: kxwfilt; utils/basop.c: main.  Modules: `Verif/Util/KxFilter.lean`.
Theorems: `filter_gain_partial`, `filter_outside`, `filter_inside`, `filter_wide`, `filter_aliased`.  Holds for positive perc, and for negative perc below the spatial Nyquist; above it the taper is not limited and the program writes before its table. One frequency; the transforms are not modelled.

**C204 Size of a model file** (partial).  Code: fdelmodc/getModelInfo.c: getModelInfo.  Modules: `Verif/Util/ModelInfo.lean`.
Theorems: `info_traces`, `info_spacing_partial`, `info_spacing_square`.  The number of traces holds; a horizontal spacing that differs by 0.5% or more from the vertical one is replaced by it.

**C205 Wavelets of convhomg** (partial).  Code: utils/convhomg.c: main.  Modules: `Verif/Util/ConvHomg.lean`.
Theorems: `circle_even_partial`, `circle_odd`, `circle_long`, `circle_mixed`.  Holds for even numbers of samples that fit; with odd numbers the middle sample is lost, and a longer wavelet for the deconvolution is mixed or written outside its array.

**C206 Stabilised deconvolution** (proved).  Code: utils/convhomg.c: deconv.  Modules: `Verif/Util/ConvHomg.lean`.
Theorems: `division_exact`, `division_damped`, `division_safe`.  Exact rationals; the transforms are not modelled.

**C207 Medium of the electromagnetic program** (proved).  Code: fdemmodc/readEmModel.c: readEmModel; fdemmodc/getEmParameters.c: getParameters.  Modules: `Verif/Em/Medium.lean`.
Theorems: `medium_nearest`.  Reading of the files is not modelled.

**C208 Constants of the electromagnetic program** (partial).  Code: fdemmodc/readEmModel.c: readEmModel; fdemmodc/em4.c: em4.  Modules: `Verif/Em/Medium.lean`.
Theorems: `wave_velocity`, `constants_wrong`.  The velocity is right. The magnetic constant is ten times that of vacuum (10e-7 for 1e-7) and the electric one a tenth.

**C209 Receivers on a line of points** (partial).  Code: utils/getrecpos.c: getrecpos; utils/green.c: main.  Modules: `Verif/Util/RecPos.lean`.
Theorems: `receivers_line_partial`, `receivers_back`, `receivers_left`, `receivers_vertical`.  Holds for lines to the right in whole numbers of spacings; lines that turn back, go left or are vertical fail. lint=1, no random shifts.

**C210 Shapes of interfaces** (proved).  Code: utils/sinuousint.c: sinuousint; utils/fractint.c: fractint.  Modules: `Verif/Util/Interfaces.lean`.
Theorems: `interface_cells`, `sinus_shape`, `fract_bound`.  Exact real numbers.

**C211 Rough interfaces** (partial).  Code: utils/roughint.c: roughint, statics.  Modules: `Verif/Util/Interfaces.lean`.
Theorems: `rough_statistics`, `rough_set`, `rough_unset`, `rough_unweighted`.  The statistics hold over the length of the transform. One element of the spectrum is not set, and the negative wavenumbers are not weighted. Transforms not modelled.

**C212 Blocking a well log** (partial).  Code: utils/readlog.c: main.  Modules: `Verif/Util/ReadLog.lean`.
Theorems: `log_safe`, `log_line_partial`, `log_thin`, `log_one`.  Holds for logs from the surface with lines at least one sample apart; closer lines are followed one per sample. Memory is safe for two lines or more, not for one.

**C213 Conversion of binary gathers** (partial).  Code: utils/mat2su.c: main.  Modules: `Verif/Util/ReadLog.lean`.
Theorems: `mat2su_gathers_partial`, `mat2su_short`.  Holds for files of whole gathers; a last gather that is not whole is completed with numbers of the one before it.

**C214 Positions in the 3D program** (partial).  Code: fdelmodc3D/applySource3D.c: applySource3D; fdelmodc3D/getRecTimes3D.c: getRecTimes3D; fdelmodc3D/readModel3D.c: readModel3D.  Modules: `Verif/Fd3/Place3D.lean`.
Theorems: `place_nodes_partial`, `place_when`, `place_front_only`, `place_back_only`, `place_outside`, `place_left_out`, `place_diagonal`.  Holds when front and back have the same type; with a taper on one of them only, sources and receivers are displaced by the length of the layer. A source one node after the model is not left out. Pressure grid.

**C215 Source amplitude of the 3D program** (proved).  Code: fdelmodc3D/applySource3D.c: applySource3D.  Modules: `Verif/Fd3/Place3D.lean`.
Theorems: `amplitude_linear`, `amplitude_silent`.  Exact rationals; one source.

**C216 Recording between grid points in the 3D program** (partial).  Code: fdelmodc3D/getRecTimes3D.c: getRecTimes3D.  Modules: `Verif/Fd3/Trilinear.lean`.
Theorems: `recP_linear`, `recP_sampled`, `recP_node`, `recP_between`, `recV_node_partial`, `recV_half`, `recPP_linear`, `recPP_cubic_partial`, `recPP_wrong`, `recVx_ignores`, `recVx_node`, `recVx_wrong`.  Holds for pressure and the stresses. The recorded vx is read from the array of vy, so it does not depend on vx (recVx_ignores, recVx_wrong); vz and vy are those half a grid point past the receiver (recV_half); the divergence is right only if the three spacings are equal (recPP_linear, recPP_wrong). The curl is not modelled.

**C217 Recording at grid points in the 3D program** (partial).  Code: fdelmodc3D/getRecTimes3D.c: getRecTimes3D; fdelmodc3D/acoustic4_3D.c: acoustic4_3D.  Modules: `Verif/Fd3/Direct.lean`.
Theorems: `recP_z`, `recP_x_partial`, `recP_x_error`, `recVz_p`, `recVx_p_partial`, `recVx_error`, `recVx_wrong`, `rec_plain`, `record_vy`, `record_rest`.  Holds for pressure towards vz and for vz towards pressure. Pressure towards vx uses the medium of one node for both (recP_x_error); vx towards pressure reads one value from the first plane of the array (recVx_error, recVx_wrong); vy is never recorded (record_vy). int=1 of the velocities, stresses, divergence and curl not modelled.

## Appendix: axioms of each theorem

**none** (6 theorems): `Verif.Getpar.last_byte_lost_witness`, `Verif.Basop.killScan_empty`, `Verif.Rtm.axis_zero`, `Verif.Snap.window_outside`, `Verif.Fd.first_shot_outside`, `Verif.Zfp.errB_values`.

**propext** (18 theorems): `Verif.Snap.file_all`, `Verif.Picks.fmute_each`, `Verif.Picks.fmute_file_ub`, `Verif.Picks.fmute_wider_ub`, `Verif.Snap.Mute.accepts_iff`, `Verif.Util.Ext3.change_samples`, `Verif.Fd.Acou.inner_wall_jumps`, `Verif.Zfp.max_bits_tight`, `Verif.Zfp.lift_overflows`, `Verif.Zfp.inv_lift_overflows`, `Verif.Zfp.metadata_truncated`, `Verif.Getpar.stale_errno_rejects`, `Verif.Zfp.maximum_size_wraps`, `Verif.Zfp.default_strides_violated`, `Verif.Zfp.no_dimensions`, `Verif.Zfp.pointer2_wraps`, `Verif.Zfp.blocks_wrap`, `Verif.Fd.Acou.silent_source_matters`.

**propext, Quot.sound** (77 theorems): `Verif.Getpar.parfile_words_partial`, `Verif.Getpar.pfname_last`, `Verif.Getpar.pfname_absent`, `Verif.Getpar.last_byte_lost`, `Verif.Stab.Order2.tall_outside`, `Verif.Stab.Order2.outside`, `Verif.Vir.read_together`, `Verif.Vir.read_race`, `Verif.Vir.write_order`, `Verif.Vir.tracl_inj`, `Verif.Basop.timeRotate_negative`, `Verif.Su.cut_exists`, `Verif.Smooth.odd_spec`, `Verif.Mute.mapj_periodic`, `Verif.Prim.primaries_reuse_wrong`, `Verif.Prim.primaries_reuse_ub`, `Verif.Prim.update_counted_twice`, `Verif.Prim.vmin_ub`, `Verif.Rtm.poynting_orient_opposite`, `Verif.Rtm.axis_points`, `Verif.Rtm.image_on_model`, `Verif.Rtm.plane_mute_overrun`, `Verif.Vmar.single_bounds`, `Verif.Vmar.single_mixes`, `Verif.Fd3.El.elastic_linear`, `Verif.Snap.Mute.start_outside`, `Verif.Snap.Mute.topdet_first_max`, `Verif.Util.square_size`, `Verif.Util.Ext3.extend_outside`, `Verif.Util.Ext3.change_twice`, `Verif.Snap.induced_even`, `Verif.Util.Info.info_traces`, `Verif.Util.Hom.circle_odd`, `Verif.Util.Hom.circle_long`, `Verif.Fd3.Place.place_nodes_partial`, `Verif.Fd3.Place.place_outside`, `Verif.Fd3.Place.place_left_out`, `Verif.Fd3.Place.place_diagonal`, `Verif.Fd.visco_memory_survives`, `Verif.Fd.all_shots_kept_partial`, `Verif.Fd.Acou.propagate_linear`, `Verif.Fd.Acou.propagate_rest`, `Verif.Fd.Acou.propagate_medium`, `Verif.Fd.Acou.sources_any_order`, `Verif.Zfp.negabinary_bijective`, `Verif.Zfp.perm1_lists`, `Verif.Zfp.perm2_lists`, `Verif.Zfp.perm3_lists`, `Verif.Zfp.perm4_lists`, `Verif.Zfp.decoded_enough`, `Verif.Zfp.decoded_exact`, `Verif.Zfp.max_bits_suffices`, `Verif.Zfp.cache_replaces`, `Verif.Zfp.cache_tag_wraps`, `Verif.Util.gcd_uint_trivial_partial`, `Verif.Util.gcd_uint_diverges`, `Verif.Util.strip_finishes`, `Verif.Util.transpose_shared_j_race`, `Verif.Util.name_ext_partial`, `Verif.Util.names_differ`, `Verif.Fd.Acou.free_surface_pressure_zero`, `Verif.Fd.Acou.free_surface_source`, `Verif.Zfp.truncated_overflow`, `Verif.Zfp.room_float`, `Verif.Zfp.room_double`, `Verif.Zfp.loop_never_ends`, `Verif.Util.lateral_one`, `Verif.Zfp.pointer2`, `Verif.Fd.Ela.elastic_linear`, `Verif.Fd.Ela.elastic_rest`, `Verif.Fd.Ela.elastic_medium`, `Verif.Fd.Acou.shoot_linear`, `Verif.Fd.Acou.shoot_silent`, `Verif.Fd.Acou.shoot_delay`, `Verif.Fd.Acou.shoot_causal`, `Verif.Med.Relax.ve_lossless_partial`, `Verif.Med.Relax.shear_uninitialised`.

**propext, Classical.choice, Quot.sound** (790 theorems): `Verif.Getpar.getparstring_last_wins`, `Verif.Getpar.query_after`, `Verif.Getpar.getpar_same_value`, `Verif.Getpar.absent_or_last`, `Verif.Getpar.absent_leaves_default`, `Verif.Getpar.stores_exactly_count_partial`, `Verif.Getpar.empty_value_looks_absent`, `Verif.Getpar.comma_list_complete`, `Verif.Getpar.comma_list_from_command_line`, `Verif.Getpar.parfile_value_seen`, `Verif.Getpar.leading_quote_overruns`, `Verif.Getpar.trailing_text_overruns`, `Verif.Fft.optncc_ge_partial`, `Verif.Fft.optncr_ge_partial`, `Verif.Fft.optn_ge_partial'`, `Verif.Fft.optn_too_short`, `Verif.Fft.optncc_too_short_beyond_table`, `Verif.Fft.npfa_least`, `Verif.Fft.npfar_least`, `Verif.Fft.npfa_mono`, `Verif.Fft.npfa_idem`, `Verif.Fft.npfa_too_short`, `Verif.Fft.npfao_cheapest`, `Verif.Fft.kfFactor_plan`, `Verif.Fft.kfFactor_fits`, `Verif.Fft.kfFactor_spec`, `Verif.Fft.kfFactor_radix_prime`, `Verif.Fft.kfWork_dft`, `Verif.Fft.kiss_fft_is_dft`, `Verif.Fft.sign_honoured_partial`, `Verif.Fft.two_threads_wrong_sign`, `Verif.Fft.dft_roundtrip`, `Verif.Fft.cc1_roundtrip`, `Verif.Stab.accepted_stable16`, `Verif.Stab.accepted_stable2_partial`, `Verif.Stab.stable4_partial`, `Verif.Stab.stable6_partial`, `Verif.Stab.stable_constant_density`, `Verif.Stab.stable_order2`, `Verif.Stab.unstable_homogeneous`, `Verif.Stab.unstable4`, `Verif.Stab.unstable6`, `Verif.Stab.accepted_unstable`, `Verif.Stab.stable_contrast`, `Verif.Stab.unstable_grain`, `Verif.Stab.no_time_step`, `Verif.Stab.accepted_unstable_density`, `Verif.Stab.Order2.inside`, `Verif.Stab.Order2.columns_missed`, `Verif.Med.Files.files_read`, `Verif.Med.Files.zero_density_stops`, `Verif.Med.Files.short_file_undefined`, `Verif.Toep.toeplitz_solves`, `Verif.Toep.toeplitz_definite`, `Verif.Toep.toeplitz_stop`, `Verif.Toep.toeplitz_one`, `Verif.Toep.toeplitz_breaks_down`, `Verif.Toep.toeplitz_not_row`, `Verif.Extrap.shortoper_best`, `Verif.Extrap.wlsq_best`, `Verif.Extrap.trunc1D_best`, `Verif.Extrap.shortoper_undefined`, `Verif.Extrap.trunc1D_even`, `Verif.Extrap.weightfunct_band`, `Verif.Extrap.weightfunct_exact`, `Verif.Extrap.weightfunct_odd`, `Verif.Extrap.weightfunct_outside`, `Verif.Extrap.weightfunct_unset`, `Verif.Extrap.kwExtr_bounded`, `Verif.Extrap.taper_bounds`, `Verif.Extrap.kwExtr_exact`, `Verif.Extrap.kwField_energy`, `Verif.Extrap.kwField_zero`, `Verif.Extrap.kwExtr_leak`, `Verif.Extrap.kwExtr_nyquist`, `Verif.Extrap.forwExtr_exact`, `Verif.Extrap.phaseShift_modulus`, `Verif.Extrap.spline3_interpolates`, `Verif.Extrap.spline3_unset`, `Verif.Fft.crdft_rcdft_odd_partial`, `Verif.Fft.crdft_rcdft_even_iff`, `Verif.Fft.crdft_rcdft_even_wrong`, `Verif.Extrap.forwExtrSmooth_exact`, `Verif.Extrap.forwExtrSmooth_zero`, `Verif.Extrap.forwExtrSmooth_symmetric`, `Verif.Extrap.edge_slope`, `Verif.Extrap.cwrap_odd`, `Verif.Ray.vidale_all`, `Verif.Ray.vidale_near`, `Verif.Ray.vidale_scaled`, `Verif.Ray.rmHead_top`, `Verif.Ray.rmHead_below`, `Verif.Ray.rmHead_above`, `Verif.Ray.rmHead_values`, `Verif.Ray.cpAverage_partial`, `Verif.Ray.cpAverage_constant`, `Verif.Ray.cpAverage_next`, `Verif.Ray.fdReceiver_ok`, `Verif.Recv.recvPar_count`, `Verif.Recv.recvPar_lines`, `Verif.Recv.recvPar_lines_dx`, `Verif.Recv.recvPar_default`, `Verif.Recv.wanted_grid`, `Verif.Recv.vertical_slants`, `Verif.Recv.horizontal_overshoots`, `Verif.Recv.point_refused`, `Verif.Recv.negative_dx`, `Verif.Recv.too_many_dx`, `Verif.Recv.shared_spacing_unset`, `Verif.Recv.recvPar_nearest`, `Verif.Recv.recvPar_points`, `Verif.Recv.array_not_clipped`, `Verif.Snap.shotSnaps_mem`, `Verif.Snap.shotSnaps_sorted`, `Verif.Snap.shotSnaps_all`, `Verif.Snap.snaPar_times`, `Verif.Snap.snap_time_error`, `Verif.Snap.snaPar_range`, `Verif.Snap.snapshot_values_partial`, `Verif.Snap.snapshot_wrong_column`, `Verif.Snap.withbnd_values`, `Verif.Snap.withbnd_same_position`, `Verif.Snap.withbnd_vz_out`, `Verif.Snap.withbnd_vx_out`, `Verif.Mute.theta_psi_complementary`, `Verif.Mute.theta_psi_not_complementary_late`, `Verif.Mute.gate7_complementary`, `Verif.Mute.gate6_gate10_complementary`, `Verif.Snap.beam_values_partial`, `Verif.Snap.beam_values`, `Verif.Snap.beam_position_wrong`, `Verif.Vir.gathers_sorted`, `Verif.Vir.gathers_overflow`, `Verif.Vir.nearest_spec`, `Verif.Vir.nearest_exact`, `Verif.Vir.tolerance_ignored`, `Verif.Vir.tolerance_squared`, `Verif.Vir.scalco_zero`, `Verif.Vir.pairs_spec`, `Verif.Vir.readTrace_swap`, `Verif.Vir.select_square_partial`, `Verif.Vir.select_square_wrong`, `Verif.Vir.select_donut_all`, `Verif.Vir.select_quadrant_line`, `Verif.Vir.select_unknown`, `Verif.Vir.corrvir_trace`, `Verif.Vir.virtualTrace_band`, `Verif.Vir.virtualTrace_stack`, `Verif.Vir.virtual_reciprocity`, `Verif.Vir.virtual_zero_lag`, `Verif.Vir.virtualTrace_few`, `Verif.Vir.virtualTrace_few_coherence`, `Verif.Vir.buffer_spec`, `Verif.Vir.write_perm`, `Verif.Basop.dispatch_documented_partial`, `Verif.Basop.dispatch_numbers`, `Verif.Basop.chain_named`, `Verif.Basop.dispatch_fits`, `Verif.Basop.dispatch_defects`, `Verif.Basop.timeFilter_spec`, `Verif.Basop.timeFilter_sinusoid`, `Verif.Basop.jom_sine`, `Verif.Basop.timeFilter_inverse`, `Verif.Basop.timeShift_whole`, `Verif.Basop.timeShift_zero`, `Verif.Basop.timeShift_alternating`, `Verif.Basop.hilbertTrans_half_partial`, `Verif.Basop.hilbertTrans_cosine`, `Verif.Basop.envelope_partial`, `Verif.Basop.envelope_constant`, `Verif.Basop.conjugate_partial`, `Verif.Basop.conjugate_late`, `Verif.Mute.gate1_mutes_early`, `Verif.Mute.gateM1_mutes_late`, `Verif.Mute.gate0_mutes_between`, `Verif.Mute.gate4_keeps_between`, `Verif.Mute.gate0_time_symmetric`, `Verif.Mute.gateM2_leaves_hole`, `Verif.Basop.rma_spec`, `Verif.Basop.rmat_spec`, `Verif.Basop.timeRotate_spec`, `Verif.Basop.nrotOf_ignored_partial`, `Verif.Basop.nrotOf_trot`, `Verif.Basop.shiftF1_val`, `Verif.Basop.pad2d_flat`, `Verif.Basop.pad2d_good_partial`, `Verif.Basop.pad2d_misplaced`, `Verif.Basop.pad2d_uninitialised`, `Verif.Basop.killOffset_spec`, `Verif.Basop.killScan_numbers`, `Verif.Basop.killTraces_spec`, `Verif.Basop.killTraces_shots`, `Verif.Basop.killTraces_shots_outside`, `Verif.Basop.killTraces_outside`, `Verif.Su.readData_spec`, `Verif.Su.readData_truncated`, `Verif.Su.readData_overrun`, `Verif.Su.readData_pipe`, `Verif.Su.filter_spec_partial`, `Verif.Su.fileInfo_spec`, `Verif.Su.filter_larger_gather`, `Verif.Su.filter_pipe_one`, `Verif.Su.filter_pipe_two`, `Verif.Smooth.rSmooth_spec`, `Verif.Smooth.rSmooth_plain`, `Verif.Smooth.rSmooth_bounds`, `Verif.Smooth.rSmooth_constant`, `Verif.Smooth.pw_inverse`, `Verif.Smooth.pw_sign`, `Verif.Smooth.rSmooth_one`, `Verif.Fd.Out.run_files_partial`, `Verif.Fd.Out.expected_numbered`, `Verif.Fd.Out.header_positions`, `Verif.Fd.Out.expected_ns`, `Verif.Fd.Out.run_split`, `Verif.Fd.Out.expected_gathers`, `Verif.Fd.Wav.wavelet_played_partial`, `Verif.Fd.Wav.band_sample`, `Verif.Fd.Wav.plays_exists`, `Verif.Fd.Wav.plays_unique`, `Verif.Fd.Wav.wavelet_plain`, `Verif.Fd.Wav.wavelet_alternates`, `Verif.Fd.Wav.wavelet_silent_wrong`, `Verif.Fd.Wav.resample_steps`, `Verif.Fd.Wav.resample_compressed`, `Verif.Fd.Wav.resample_stretched`, `Verif.Fd.Wav.cutSmall_near`, `Verif.Fd.Wav.cutSmall_silenced`, `Verif.Fd.Wav.cutSmall_last_silent`, `Verif.PadMod.padmodel_partial`, `Verif.PadMod.padmodel_edges`, `Verif.PadMod.padmodel_value`, `Verif.PadMod.padmodel_bottom_lost`, `Verif.PadMod.padmodel_value_misplaced`, `Verif.PadMod.origin_kept`, `Verif.Mute.mapj_in_range_iff`, `Verif.PadMod.truncate_spec`, `Verif.PadMod.truncate_last`, `Verif.PadMod.truncate_first_refused`, `Verif.FreqWave.freqwave_peak`, `Verif.FreqWave.freqwave_scaled`, `Verif.FreqWave.freqwave_unscaled`, `Verif.FreqWave.freqwave_g1`, `Verif.FreqWave.gauss_positive`, `Verif.FreqWave.tpeak_shift`, `Verif.FreqWave.tpeak_plain`, `Verif.FreqWave.kind_chosen`, `Verif.FreqWave.kind_names`, `Verif.FreqWave.shape_peak`, `Verif.FreqWave.shape_peak_g0`, `Verif.FreqWave.peak_attenuated`, `Verif.FreqWave.sqrtg2_ratio`, `Verif.FreqWave.sqrtg2_not_attenuated`, `Verif.FreqWave.invert_spec`, `Verif.FreqWave.mon_ub`, `Verif.FreqWave.mon_default_ub`, `Verif.FreqWave.mon_above_ub`, `Verif.FreqWave.fw_ub`, `Verif.Prim.primaries_each`, `Verif.Prim.primaries_reuse_partial`, `Verif.Prim.reuse_fixed`, `Verif.Prim.reuse_actual`, `Verif.Prim.early_abrupt`, `Verif.Prim.early_keeps`, `Verif.Prim.update_complement`, `Verif.Prim.split_min`, `Verif.Prim.taper_sum`, `Verif.Picks.tinv_picks`, `Verif.Picks.fmute_picks`, `Verif.Picks.Tracked.smooth`, `Verif.Picks.Tracked.drift`, `Verif.Picks.tinv_picks_ub`, `Verif.Picks.fmute_itb_ignored`, `Verif.Mdd.correlation_partial`, `Verif.Mdd.pass_through`, `Verif.Mdd.corr_more_stop`, `Verif.Mdd.fewer_traces_fails`, `Verif.Mdd.more_traces_mixed`, `Verif.Marchenko.reverseShot_reverses`, `Verif.Marchenko.reverseShot_involutive`, `Verif.Mdd.mdd1_normal_partial`, `Verif.Mdd.mdd1_actual`, `Verif.Mdd.mdd2_solves_partial`, `Verif.Mdd.mdd2_shots_ub`, `Verif.Mdd.conjgA_wrong`, `Verif.Mdd.transmission_actual`, `Verif.Mdd.transmission_sign`, `Verif.Mdd.transmission_even`, `Verif.Mdd.lsqr_adjoint`, `Verif.Mdd.aprod1_adds`, `Verif.Mdd.aprod2_overwrites`, `Verif.Mdd.lsqr_step_wrong`, `Verif.Mdd.cholesky_inverse`, `Verif.Mdd.lu_inverse`, `Verif.Mdd.svd_penrose`, `Verif.Mdd.svd_inverse`, `Verif.Mdd.mdd_least_squares_partial`, `Verif.Mute.plane_theta_window`, `Verif.Mute.plane_odd_reverses_even`, `Verif.Mute.tshift_is_plane`, `Verif.Mute.plane_theta_psi_partial`, `Verif.Mute.plane_theta_psi_lose`, `Verif.Mute.plane_one_sided_complementary`, `Verif.Rtm.rtm_conventional`, `Verif.Rtm.poynting_image_partial`, `Verif.Rtm.poynting_shift`, `Verif.Rtm.decomposition_zero`, `Verif.Marchenko.rotate_is_circular_shift`, `Verif.Marchenko.rotate_loses_nothing`, `Verif.Marchenko.rotate_t0_in_middle`, `Verif.Marchenko.rotate_odd_loses_t0`, `Verif.Marchenko.nts_even`, `Verif.Rtm.hilbert_updown`, `Verif.Rtm.conventional_cosines`, `Verif.Rtm.hilbert_leftright_overrun`, `Verif.Rtm.hilbert_leftright_flat`, `Verif.Rtm.plane_aligned_partial`, `Verif.Rtm.plane_misaligned`, `Verif.Vmar.vmar_up`, `Verif.Vmar.vmar_down`, `Verif.Vmar.vmar_series_partial`, `Verif.Vmar.green_plus_partial`, `Verif.Vmar.green_plus_stale`, `Verif.Vmar.green_plus_wrong`, `Verif.Vmar.green_plus_single`, `Verif.Vmar.threads_partial`, `Verif.Vmar.threads_matter`, `Verif.M3D.line_complete_partial`, `Verif.M3D.raster_complete_partial`, `Verif.M3D.pos_nearest`, `Verif.M3D.position_lost`, `Verif.M3D.position_repeated`, `Verif.M3D.positions_overflow`, `Verif.M3D.synthesis3D_integral`, `Verif.M3D.theta3D_partial`, `Verif.M3D.theta3D_leak`, `Verif.M3D.theta3D_late`, `Verif.M3D.psi3D_partial`, `Verif.M3D.oneSided3D`, `Verif.M3D.band3D`, `Verif.M3D.imaging_spec`, `Verif.Marchenko.last_sample_lost`, `Verif.Marchenko.all_samples_used_partial`, `Verif.Marchenko.no_padding_partial`, `Verif.Marchenko.short_transform_overflows`, `Verif.M3D.cost_partial`, `Verif.M3D.cost_lost_update`, `Verif.M3D.ampEst_partial`, `Verif.M3D.ampEst_value`, `Verif.M3D.ampEst_accumulates`, `Verif.M3D.amp_applied`, `Verif.M3D.amp_green_partial`, `Verif.M3D.amp_green_wrong`, `Verif.M3D.scale_partial`, `Verif.M3D.scale_off`, `Verif.M3D.scale_quiet`, `Verif.M3D.scale_one_iteration`, `Verif.Fd3.sweeps_in_bounds`, `Verif.Fd3.step_in_bounds`, `Verif.Fd3.velocity_update`, `Verif.Fd3.pressure_update`, `Verif.Fd3.step_spec`, `Verif.Fd3.sweeps_schedule`, `Verif.Fd3.step_schedule_partial`, `Verif.Fd3.step_schedule_barrier`, `Verif.Fd3.free_surface_race`, `Verif.Fd3.step_linear`, `Verif.Fd3.El.elastic_in_bounds`, `Verif.Fd3.El.elastic_velocity_update`, `Verif.Fd3.El.elastic_stress_update`, `Verif.Fd3.El.elastic_grids`, `Verif.Marchenko.ngath_counts_runs`, `Verif.Marchenko.gather_length_partial`, `Verif.Marchenko.single_trace_gathers`, `Verif.Marchenko.extent_is_tight`, `Verif.Fd3.El.elastic_schedule`, `Verif.Fd3.El.elastic_fluid`, `Verif.Snap.window_read`, `Verif.Snap.reshape_exchanges`, `Verif.Snap.reshape_twice`, `Verif.Snap.header_twice`, `Verif.Snap.header_time`, `Verif.Snap.header_position_partial`, `Verif.Snap.header_position_metres`, `Verif.Snap.shots_transpose`, `Verif.Snap.names_one_digit_partial`, `Verif.Snap.names_more_digits`, `Verif.Snap.names_absent`, `Verif.Snap.names_wrong_digit`, `Verif.Snap.Mute.centre_weights`, `Verif.Snap.Mute.centre_symmetric`, `Verif.Snap.Mute.centre_zone`, `Verif.Snap.Mute.centre_twice`, `Verif.Snap.Mute.start_clear_partial`, `Verif.Snap.Mute.farrdet_first`, `Verif.Marchenko.positions_sorted_and_complete_partial`, `Verif.Marchenko.accepted_in_range`, `Verif.Marchenko.position_minus_one`, `Verif.Marchenko.position_overflow`, `Verif.Snap.Mute.same_volume_refused`, `Verif.Em.em_in_bounds`, `Verif.Em.em_order_two`, `Verif.Em.em_update`, `Verif.Em.em_schedule`, `Verif.Em.em_other_thread`, `Verif.Em.mu0_ten_times`, `Verif.Em.velocity_right`, `Verif.Snap.combine_planes`, `Verif.Snap.combine_stacks_partial`, `Verif.Snap.combine_thick`, `Verif.Snap.combine_name_partial`, `Verif.Snap.combine_name_more`, `Verif.Snap.combine_gx_partial`, `Verif.Snap.combine_gx_wrong`, `Verif.Util.diamond_cells`, `Verif.Util.circle_cells`, `Verif.Util.square_cells`, `Verif.Util.diamond_circle_symmetric`, `Verif.Util.square_one_empty`, `Verif.Util.diffraction_point`, `Verif.Util.diffraction_edge`, `Verif.Util.ellipse_cells`, `Verif.Util.Ext3.extend_shifts`, `Verif.Marchenko.synthesis_schedule_independent`, `Verif.Marchenko.synthesis_lost_update`, `Verif.Marchenko.reciprocal_schedule_independent`, `Verif.Par.par_eq_seq`, `Verif.Marchenko.SynIn.sum_eq`, `Verif.Snap.induced_sum_partial`, `Verif.Snap.induced_many_files`, `Verif.Snap.induced_no_overlap`, `Verif.Snap.induced_race`, `Verif.Snap.R1D.response_right_partial`, `Verif.Snap.R1D.response_small_spacing`, `Verif.Snap.R1D.response_one_sided`, `Verif.Snap.R1D.response_factor`, `Verif.Snap.R1D.response_fraction`, `Verif.Util.Kxw.filter_gain_partial`, `Verif.Util.Kxw.filter_outside`, `Verif.Util.Kxw.filter_inside`, `Verif.Util.Kxw.filter_wide`, `Verif.Util.Kxw.filter_aliased`, `Verif.Util.Info.info_spacing_partial`, `Verif.Util.Info.info_spacing_square`, `Verif.Util.Hom.circle_even_partial`, `Verif.Util.Hom.circle_mixed`, `Verif.Util.Hom.division_exact`, `Verif.Util.Hom.division_damped`, `Verif.Util.Hom.division_safe`, `Verif.Em.Medium.medium_nearest`, `Verif.Em.Medium.wave_velocity`, `Verif.Em.Medium.constants_wrong`, `Verif.Util.RecPos.receivers_line_partial`, `Verif.Util.RecPos.receivers_back`, `Verif.Util.RecPos.receivers_left`, `Verif.Util.RecPos.receivers_vertical`, `Verif.Marchenko.Iter.iteration_sums_partial`, `Verif.Marchenko.Iter.f2_from_f1_partial`, `Verif.Marchenko.Iter.green_decomposition_partial`, `Verif.Marchenko.Iter.conj_is_reversal`, `Verif.Util.Intf.interface_cells`, `Verif.Util.Intf.sinus_shape`, `Verif.Util.Intf.fract_bound`, `Verif.Util.Intf.rough_statistics`, `Verif.Util.Intf.rough_set`, `Verif.Util.Intf.rough_unset`, `Verif.Util.Intf.rough_unweighted`, `Verif.Util.Log.log_safe`, `Verif.Util.Log.log_line_partial`, `Verif.Util.Log.log_thin`, `Verif.Util.Log.log_one`, `Verif.Util.Log.mat2su_gathers_partial`, `Verif.Util.Log.mat2su_short`, `Verif.Fd3.Place.place_when`, `Verif.Fd3.Place.place_front_only`, `Verif.Fd3.Place.place_back_only`, `Verif.Fd3.Place.amplitude_linear`, `Verif.Fd3.Place.amplitude_silent`, `Verif.Fd3.Tri.recP_linear`, `Verif.Fd3.Tri.recP_sampled`, `Verif.Fd3.Tri.recP_node`, `Verif.Fd3.Tri.recP_between`, `Verif.Fd3.Tri.recV_node_partial`, `Verif.Fd3.Tri.recV_half`, `Verif.Fd3.Tri.recPP_linear`, `Verif.Fd3.Tri.recPP_cubic_partial`, `Verif.Fd3.Tri.recPP_wrong`, `Verif.Fd3.Tri.recVx_ignores`, `Verif.Fd3.Tri.recVx_node`, `Verif.Fd3.Tri.recVx_wrong`, `Verif.Fd3.Direct.recP_z`, `Verif.Fd3.Direct.recP_x_partial`, `Verif.Fd3.Direct.recP_x_error`, `Verif.Fd3.Direct.recVz_p`, `Verif.Fd3.Direct.recVx_p_partial`, `Verif.Fd3.Direct.recVx_error`, `Verif.Fd3.Direct.recVx_wrong`, `Verif.Fd3.Direct.rec_plain`, `Verif.Fd3.Direct.record_vy`, `Verif.Fd3.Direct.record_rest`, `Verif.Fd.every_shot_once`, `Verif.Fd.recorded_steps`, `Verif.Fd.inRange_iff`, `Verif.Fd.default_inRange_iff`, `Verif.Fd.split_out_of_range`, `Verif.Fd.recorded_trace_partial`, `Verif.Fd.spill_into_next_trace`, `Verif.Fd.shots_independent_partial`, `Verif.Fd.visco_shots_dependent`, `Verif.Fd.beams_accumulate`, `Verif.Fd.shots_kept_when_line_leaves_model`, `Verif.Fd.shots_lost`, `Verif.Fd.kept_shots_inside`, `Verif.Fd.Acou.step_in_bounds_partial`, `Verif.Fd.Acou.step_out_of_bounds`, `Verif.Fd.Acou.parSteps_eq_partial`, `Verif.Fd.Acou.parSteps_exists`, `Verif.Fd.Acou.parStepsS_eq_partial`, `Verif.Fd.Acou.parStepsS_exists`, `Verif.Fd.Acou.recording_race`, `Verif.Fd.Acou.wall_race`, `Verif.Fd.Acou.finite_speed_partial`, `Verif.Fd.Source.file_wavelet_interpolated_partial`, `Verif.Fd.Source.interp_at_samples`, `Verif.Fd.Source.interp_between`, `Verif.Fd.Source.point_source_sample`, `Verif.Fd.Source.last_sample_silent`, `Verif.Fd.Source.random_in_bounds_partial`, `Verif.Fd.Source.random_overrun`, `Verif.Fd.Receiver.vz_to_vx`, `Verif.Fd.Receiver.vx_to_vz`, `Verif.Fd.Receiver.vz_to_p_acoustic`, `Verif.Fd.Receiver.vx_to_p_acoustic`, `Verif.Fd.Receiver.vz_to_p_elastic`, `Verif.Fd.Receiver.txz_to_p`, `Verif.Fd.Receiver.p_to_vz`, `Verif.Fd.Receiver.exact_position`, `Verif.Fd.Receiver.exact_at_node`, `Verif.Fd.Receiver.vx_to_p_elastic_wrong`, `Verif.Fd.Receiver.vx_to_p_visco_null`, `Verif.Fd.Receiver.p_null`, `Verif.Fd.Receiver.p_to_vx_wrong`, `Verif.Fd.Receiver.vx_to_p_left_edge`, `Verif.Fd.Receiver.vz_vx_apart`, `Verif.Fd.Receiver.exact_vx_shifted`, `Verif.Zfp.round_trip`, `Verif.Zfp.flushed_memory`, `Verif.Zfp.seek_read`, `Verif.Zfp.seek_write`, `Verif.Zfp.skip_tell`, `Verif.Zfp.align_tell`, `Verif.Zfp.copy_correct`, `Verif.Zfp.negabinary_value32`, `Verif.Zfp.negabinary_value64`, `Verif.Zfp.few_planes32`, `Verif.Zfp.few_planes64`, `Verif.Zfp.drop_planes32`, `Verif.Zfp.drop_planes64`, `Verif.Zfp.order_round_trip`, `Verif.Zfp.order_round_trip_tables`, `Verif.Zfp.sequency_order`, `Verif.Zfp.blocks_round_trip`, `Verif.Zfp.embedded`, `Verif.Zfp.progressive`, `Verif.Zfp.decoder_total`, `Verif.Zfp.lift_round_trip`, `Verif.Zfp.xform_round_trip`, `Verif.Zfp.errB_le`, `Verif.Zfp.header_round_trip`, `Verif.Zfp.header_accepts`, `Verif.Zfp.short_modes`, `Verif.Zfp.promote_demote`, `Verif.Zfp.demote_saturates`, `Verif.Zfp.demote_error`, `Verif.Zfp.cache_refines`, `Verif.Zfp.new_array`, `Verif.Zfp.cache_transparent`, `Verif.Zfp.read_after_write`, `Verif.Zfp.reads_keep_data`, `Verif.Zfp.flush_once`, `Verif.Zfp.cache_size`, `Verif.Util.polint_interpolates`, `Verif.Util.polint_passes_through`, `Verif.Util.polint_stops`, `Verif.Util.spline_interpolates`, `Verif.Util.spline_passes_through`, `Verif.Util.spline_one_point`, `Verif.Util.extendModel_correct`, `Verif.Util.extendModel_coordinates`, `Verif.Util.correlate_conj_product`, `Verif.Util.coherence_modulus_partial`, `Verif.Util.coherence_above_one`, `Verif.Util.coherence_uninitialised`, `Verif.Util.transpose_correct_partial`, `Verif.Util.transpose_overruns`, `Verif.Marchenko.firstBreak_tracks`, `Verif.Marchenko.firstBreak_tracks_reversed`, `Verif.Marchenko.Tracked.smooth`, `Verif.Getpar.eatoi_exact_or_error`, `Verif.Getpar.eatoh_exact_or_error`, `Verif.Getpar.eatol_exact_or_error`, `Verif.Getpar.unsigned_exact_or_error_partial`, `Verif.Getpar.unsigned_wraps`, `Verif.Util.name_ext_plain`, `Verif.Util.name_ext_other`, `Verif.Util.rec_names_partial`, `Verif.Util.rec_names_differ_partial`, `Verif.Util.name_ext_cut`, `Verif.Util.name_ext_directory`, `Verif.Util.name_ext_overflow`, `Verif.Fd.Acou.interior_velocity`, `Verif.Fd.Acou.interior_pressure`, `Verif.Fd.Acou.derivative_exact_partial`, `Verif.Fd.Acou.acoustic_slope`, `Verif.Fd.Acou.acoustic_slope_wrong`, `Verif.Zfp.int_blocks_round_trip`, `Verif.Zfp.random_access`, `Verif.Zfp.fixed_rate_encode`, `Verif.Zfp.fixed_rate_decode`, `Verif.Zfp.float_block_size`, `Verif.Zfp.float_round_trip`, `Verif.Zfp.float_accuracy_partial`, `Verif.Zfp.accuracy_violated`, `Verif.Zfp.tiny_block`, `Verif.Zfp.budget_violated`, `Verif.Zfp.set_accuracy`, `Verif.Zfp.set_accuracy_block_partial`, `Verif.Zfp.set_precision`, `Verif.Zfp.set_rate`, `Verif.Zfp.settings_fit`, `Verif.Zfp.int_maximum_size_partial`, `Verif.Zfp.float_maximum_size_partial`, `Verif.Zfp.maximum_size_violated`, `Verif.Zfp.int_array_round_trip`, `Verif.Zfp.float_array_round_trip_partial`, `Verif.Zfp.default_strides`, `Verif.Util.linear_interface_partial`, `Verif.Util.poly_interface_partial`, `Verif.Util.spline_interface_partial`, `Verif.Util.linear_interface_drifts`, `Verif.Util.linear_interface_outside`, `Verif.Util.linear_interface_one_point`, `Verif.Util.grid_below`, `Verif.Util.grid_above_partial`, `Verif.Util.grid_gradient_partial`, `Verif.Util.grid_gradient_spills`, `Verif.Util.grid_gradient_outside`, `Verif.Util.grid_gradient_overshoots`, `Verif.Util.grid_above_outside`, `Verif.Util.makemod_layers_partial`, `Verif.Util.lateral_two_partial`, `Verif.Util.lateral_many_partial`, `Verif.Util.lateral_shifts`, `Verif.Util.lateral_two_outside`, `Verif.Zfp.elements1`, `Verif.Zfp.elements2`, `Verif.Zfp.elements3`, `Verif.Zfp.array2_elements`, `Verif.Zfp.array3_elements`, `Verif.Zfp.iterator2`, `Verif.Zfp.iterator3`, `Verif.Fd.Ela.elastic_in_bounds_partial`, `Verif.Fd.Ela.elastic_out_of_bounds`, `Verif.Fd.Ela.elastic_parSteps_eq_partial`, `Verif.Fd.Ela.elastic_parSteps_exists`, `Verif.Fd.Ela.elastic_wall_race`, `Verif.Fd.Ela.elastic_velocity`, `Verif.Fd.Ela.elastic_stress`, `Verif.Fd.Ela.elastic_shear_frozen`, `Verif.Fd.Ela.elastic_free_top`, `Verif.Fd.Ela.elastic_free_right`, `Verif.Fd.Ela.elastic_free_bottom`, `Verif.Fd.Ela.elastic_free_left`, `Verif.Fft.Mayer.rc1_pow2_dft`, `Verif.Fft.Mayer.cr1_pow2_dft`, `Verif.Fft.Mayer.cr1_rc1_pow2`, `Verif.Fft.Mayer.rc1_cr1_pow2`, `Verif.Fft.Mayer.pow2_small_out_of_bounds`, `Verif.Fft.Mayer.rc1_pow2_large_wrong`, `Verif.Fft.Mayer.rc1_pow2_huge_out_of_bounds`, `Verif.Fd.Ela.elastic_taper_vx`, `Verif.Fd.Ela.elastic_taper_vz`, `Verif.Fd.Ela.elastic_pml_vx`, `Verif.Fd.Ela.elastic_pml_vz`, `Verif.Fd.Ela.elastic_pml_normal`, `Verif.Fd.Ela.elastic_pml_shear`, `Verif.Fd.Ela.elastic_wall_top`, `Verif.Fd.Ela.elastic_wall_bottom`, `Verif.Fd.Ela.elastic_wall_right`, `Verif.Fd.Ela.elastic_wall_left`, `Verif.Fd.Ela.elastic_bottom_wall_cuts`, `Verif.Fd.Ela.elastic_right_wall_cuts`, `Verif.Fd.Ela.elastic_bottom_wall_short`, `Verif.Fd.Acou.shoot_sum`, `Verif.Fd.Acou.shoot_single_partial`, `Verif.Fd.Acou.source_velocity`, `Verif.Fd.Acou.source_pressure`, `Verif.Fd.Acou.top_source_saved`, `Verif.Fd.Acou.cleared_source_lost`, `Verif.Fd.Acou.bottom_source_lost`, `Verif.Fd.Acou.source_in_bounds_partial`, `Verif.Fd.Acou.plane_wave_out_of_bounds`, `Verif.Fft.Pfa.pfamcc_dft`, `Verif.Fft.Pfa.pfacc_dft`, `Verif.Fft.Pfa.pfarc_dft`, `Verif.Fft.Pfa.pfacr_dft`, `Verif.Fft.Pfa.pfacr_pfarc`, `Verif.Fft.Lib.cc1_fft_dft`, `Verif.Fft.Lib.ccm_fft_dft`, `Verif.Fft.Lib.cc1_fft_roundtrip`, `Verif.Fft.Lib.rc1_fft_dft`, `Verif.Fft.Lib.cr1_fft_dft`, `Verif.Fft.Lib.cr1_rc1_fft`, `Verif.Fft.Pfa.pfa2rc_dft`, `Verif.Fft.Pfa.pfa2cr_dft`, `Verif.Fft.Lib.rcm_fft_dft_partial`, `Verif.Fft.Lib.crm_fft_dft_partial`, `Verif.Fft.Lib.crm_rcm_fft`, `Verif.Fft.Lib.rcm_fft_layout`, `Verif.Fft.Lib.rcm_fft_layout_wrong`, `Verif.Fft.Lib.optncr_invLen`, `Verif.Fft.Lib.padded_roundtrip`, `Verif.Fft.Lib.xt2wx_spec`, `Verif.Fft.Lib.wx2xt_spec`, `Verif.Fft.Lib.wx2xt_xt2wx`, `Verif.Fft.Lib.xt2wkx_spec`, `Verif.Fft.Lib.wkx2xt_spec`, `Verif.Fft.Lib.wkx2xt_xt2wkx`, `Verif.Fft.Lib.cc2dfft_spec`, `Verif.Fft.Lib.cc2dfft_roundtrip`, `Verif.Fft.Lib.rc2dfft_spec_partial`, `Verif.Fft.Lib.cr2dfft_spec_partial`, `Verif.Fft.Lib.cr2dfft_rc2dfft`, `Verif.Fft.Lib.yxt2wkykx_spec`, `Verif.Fft.Lib.wkykx2yxt_spec`, `Verif.Fft.Lib.wkykx2yxt_yxt2wkykx`, `Verif.Conv.convol_spec`, `Verif.Conv.convol_wrap`, `Verif.Conv.convol_linear`, `Verif.Conv.convol_not_linear`, `Verif.Conv.corr_spec`, `Verif.Conv.corr_lags`, `Verif.Conv.power_spec`, `Verif.Conv.corr3_spec`, `Verif.Conv.corr3_wrong`, `Verif.Conv.deconv_spec`, `Verif.Conv.convol_deconv`, `Verif.Conv.deconv_divides_by_zero`, `Verif.Conv.cohr_spec_partial`, `Verif.Conv.cohr_uninitialised`, `Verif.Conv.fconv_gathers`, `Verif.Conv.fconv_convolution`, `Verif.Conv.convTrace_linear`, `Verif.Conv.fconv_correlation`, `Verif.Conv.fconv_ntfft_partial`, `Verif.Conv.ntfft_overflows`, `Verif.Conv.ntfft_forgotten`, `Verif.Conv.later_gather_overflows`, `Verif.Conv.repeated_trace_lost`, `Verif.Conv.auto_gathers_partial`, `Verif.Conv.auto_correlation_partial`, `Verif.Conv.auto_extra_traces`, `Verif.Med.medium_acoustic`, `Verif.Med.moving_surface`, `Verif.Med.medium_elastic_partial`, `Verif.Med.pml_roz_shifted`, `Verif.Med.pml_roz_example`, `Verif.Med.shear_wrong_density`, `Verif.Med.homogeneous`, `Verif.Med.shear_fluid`, `Verif.Med.Visco.qp_reached`, `Verif.Med.Visco.qs_reached`, `Verif.Med.Visco.qs_ok`, `Verif.Med.Visco.dissipative`, `Verif.Med.Relax.va_relaxation_partial`, `Verif.Med.Relax.va_many`, `Verif.Med.Relax.modulus_multiplied`, `Verif.Med.Relax.two_frequencies`, `Verif.Med.Relax.ve_relaxation`, `Verif.Med.Relax.relax_stored`, `Verif.Med.Relax.relax_overflow`, `Verif.Med.Relax.shear_last_column`, `Verif.Med.Info.info_max`, `Verif.Med.Info.info_min`, `Verif.Med.Info.info_min_nonzero_partial`, `Verif.Med.Info.info_min_zero`, `Verif.Med.Info.courant_everywhere`, `Verif.Med.Info.wavelength_everywhere_partial`, `Verif.Med.Info.air_column_refused`, `Verif.Med.Info.slow_shear_accepted`.
