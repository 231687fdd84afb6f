# Formal model of JanThorbecke/OpenSource in Lean 4

This file is written by `tools/design.py` from `tools/design_head.md` (sections 1-5), `properties.jsonl`, `MANIFEST.json` and
the axioms reported by Lean.

## 1. Conventions

* C control flow is transcribed function by function.  Loops become structural recursion, folds, or lists of the assignments
  they execute; mutable arrays become functions from index to value or lists; static variables become fields of a state that
  is passed from call to call.
* An access outside an array, an overflowing shift, a division by zero, a write past a string, and a call of the program's
  `err` are a distinct outcome (`none`).  Theorems of the form "the outcome is `some …`" therefore say that none of this
  happens.  Where the code does it, a theorem says so for a witness, or for every input of the bad class.
* Unbounded loops carry fuel; the theorems show that the fuel suffices, or that no fuel suffices (`gcd_uint_diverges`,
  `loop_never_ends`).
* `float` and `double` are exact numbers: ℚ, ℝ, ℂ, or an arbitrary commutative ring.  Rounding is not modelled, except that
  the zfp model takes the rounding of the decoded value as a parameter.  Machine integers are reduced modulo their size where
  the wrap-around matters (all of zfp); elsewhere they are ℤ or ℕ with range hypotheses in the statement.
* Parallel loops: every iteration is a thread; every read and every write of shared memory is an atomic step; a schedule is
  any interleaving between two barriers (`Verif/Base/Par.lean`, `ParProg.lean`).  Statements quantify over all schedules.
* A property the code violates has three parts: a theorem that refutes it (a witness, or the exact set of bad inputs), the
  strongest true form under a name ending in `_partial`, and a note in `MANIFEST.json`.
* Specifications stand apart from the model: they are either ordinary mathematics (`Finset` sums, `List` functions, ℚ
  arithmetic) or a small definition above the theorem.  Beside each theorem an `example` meets its hypotheses.

## 2. Trusted base

* The Lean 4.33.0 kernel and Mathlib's statements of the notions used in the specifications.
* Axioms: `propext`, `Classical.choice`, `Quot.sound`, nothing else.  The appendix lists them for every theorem of the
  manifest.  No axiom is added, no `sorry`, no `native_decide`, no `bv_decide`.
* The transcription of C into the model.  It is by hand; each definition cites its lines.  Nothing connects the C text to the
  model mechanically.
* Of the C language: `int` does not overflow outside zfp; `>>` of a negative number rounds down; `<<` of a negative number
  multiplies; distinct arrays do not overlap.

## 3. What is modelled

| part | code | modules |
|------|------|---------|
| parameters | `fdelmodc/getpars.c` (`initargs`, `getparindex`, `getpar*`, `getnpar*`, `countparval`, par-file scanner), `atopkge.c` (integer conversions) | `Getpar/*` |
| FFT | `FFTlib/kiss_fft.c` (plan, twiddles, all butterflies, `kf_work`), `lib_fft.c` (`rc1_fft`, `cr1_fft`, `cc1_fft`, `rcm_fft`, `crm_fft`, `ccm_fft` with their choice of the algorithm and all statics, `rcdft`, `crdft`), `xt2wx.c`, `wx2xt.c`, `xt2wkx.c`, `wkx2xt.c`, `cc2dfft.c`, `rc2dfft.c`, `cr2dfft.c`, `yxt2wkykx.c`, `wkykx2yxt.c` (branches without vendor libraries), `fft_mayer.c`, `trigtbl.h`, `optnumber.c`, `pfafft.c` (`npfa`, `npfar`, `npfao`, `pfacc`, `pfamcc`, `pfa2cc`, `pfarc`, `pfacr`, `pfa2rc` and `pfa2cr` along dimension 1, all ten butterflies) | `Fft/*` |
| Marchenko | `applyMute.c`, `mapj.c`, `synthesis.c` (loops, positions), `marchenko.c` (iteration), `getFileInfo.c`, `readShotData.c` (padding), `findFirstBreak.c`, time reversal and rotation | `Mute/*`, `Marchenko/*` |
| acoustic modelling | `acoustic4.c`, `boundaries.c` with `ischeme=1`: all four boundary types on all sides; `applySource.c` and `sourceOnSurface.c` for the acoustic source types | `Fd/Acou*`, `Base/Stencil*` |
| elastic modelling | `elastic4.c`, `boundaries.c` with `ischeme=3` | `Fd/Ela*` |
| medium parameters | `readModel.c` (grids, borders, CPML and air; relaxation times), geometry of `getParameters.c`; memory variables of `viscoacoustic4.c` and `viscoelastic4.c` at one point | `Med/*` |
| stability | `getModelInfo.c`; checks of `getParameters.c:231-336`; `acoustic2.c`, `acoustic4.c`, `acoustic6.c`, `acoustic16.c` (loops, free sides) over the real numbers | `Med/Info`, `Stab/*` |
| receiver positions | `recvPar.c` | `Recv/*` |
| snapshots and beams | `writeSnapTimes.c`, `getBeamTimes.c`, `getParameters.c:1059-1079` | `Snap/*` |
| virtual shot records | `corrvir/corrvir.c` (reading of headers from disk and timing not modelled) | `Vir/*` |
| basic operations | `utils/basop.c`: choice, operations with time only, averages, rotation, killing, `pad2d_data` (operations with wavenumbers, `scaletraces` not modelled) | `Basop/*` |
| gathers and filters | `utils/readData.c`, `utils/writeData.c`, `utils/getFileInfo.c` (with gathers), main loop of `utils/smooth.c` and `utils/basop.c`, `rSmooth` | `Su/*` |
| receiver files | loop over shots of `fdelmodc/fdelmodc.c`, `fdelmodc/writeRec.c` | `Fd/RunFiles` |
| source wavelet | `fdelmodc/defineSource.c` (wavelets from a file), resampling in `fdelmodc/getParameters.c` | `Fd/Wavelet` |
| padding and truncation of models | `utils/padmodel.c`, `utils/truncate.c` | `Util/PadModel` |
| wavelets | `utils/freqwave.c` (all kinds but `cs`, `inverse=2` and `shift` of `fw`) | `Util/FreqWave` |
| primaries | `marchenko/marchenko_primaries.c` (loop over samples, windows, `k1min`, `Mup`, `u-`/`v-`; the operator is a linear map; no plane waves) | `Marchenko/Primaries` |
| picks | `marchenko/readTinvData.c` (picks), `marchenko/fmute.c` (`findMax`, order of the gathers) | `Marchenko/Picks` |
| multi-dimensional deconvolution | `MDD/deconvolve.c` (mdd 0,1,2,4,6, LSQR operators), `MDD/computeMatrixInverse.c` (rthm 0-5); BLAS and LAPACK by contract; LSQR itself not modelled | `Mdd/*` |
| plane-wave windows | `marchenko/applyMute_plane.c`, `applyMute_tshift` of `marchenko/applyMute_tshift.c` (not `timeShift`) | `Mute/Plane`, `Mute/PlaneProps` |
| reverse time migration | `fdacrtmc/rtmImagingCondition.c` (modes 1, 2, 3, 5), `extractMigrationSnapshots.c`, shot/time loops and stacking of `fdacrtmc.c`, image grid of `getParameters.c`, snapshot bookkeeping and mute rows of `PlaneWaveDecomposition.c` | `Rtm/*` |
| vmar | `vmar/Marchenko_Iterations.c` (square geometry; the down-going loop and the addresses of the single-shot version) | `Vmar/*` |
| marchenko3D | `marchenko3D/synthesis3D.c`, `applyMute3D.c` (applyMute3D), `imaging3D.c`, `Cost3D.c` (the sum), `ampest3D.c` (AmpEst3D from the loop on), the amplitude and scale-factor loops of `marchenko3D.c` | `M3D/*` |
| fdelmodc3D | `fdelmodc3D/acoustic4_3D.c` and `elastic4_3D.c` (without sources), the index ranges of `getParameters3D.c`, the free surfaces of `boundaries3D.c` | `Fd3/*` |
| snapshot tools | `utils/readSnapData3D.c` (window), `utils/reshape_su.c`, `utils/snap2shot.c`, `utils/mutesnap.c` (without files and raytimes) | `Snap/*` |
| fdemmodc | `fdemmodc/em4.c` (without sources and boundaries), ranges of `getEmParameters.c` | `Em/*` |
| combine | `utils/combine.c` (copying, names, `gx`) | `Snap/Combine*` |
| bodies of makemod | `utils/diffraction.c`, `utils/elipse.c` (without random perturbation) | `Util/Shapes*` |
| extend3D, changevalue | `utils/extend3D.c` (copying), `utils/changevalue.c` (samples) | `Util/Extend3D` |
| combine_induced | `utils/combine_induced.c` (sum; threads for one element) | `Snap/Induced` |
| makeR1D | `utils/makeR1D.c` (geometry, samples) | `Snap/R1D` |
| wavenumber filter | `utils/kxwfilter.c` (`kxwfilt`) | `Util/KxFilter` |
| model size | `fdelmodc/getModelInfo.c` (size, spacing) | `Util/ModelInfo` |
| convhomg | `utils/convhomg.c` (wavelets, `deconv` without transforms) | `Util/ConvHomg` |
| electromagnetic medium | `fdemmodc/readEmModel.c` (grids, constants; not the reading) | `Em/Medium` |
| receivers of green | `utils/getrecpos.c` (`lint=1`), number of receivers of `utils/green.c` | `Util/RecPos` |
| interfaces of makemod | `utils/sinuousint.c`, `utils/fractint.c`, `utils/roughint.c` (without random numbers and transforms) | `Util/Interfaces` |
| readlog, mat2su | `utils/readlog.c` (blocking), `utils/mat2su.c` (gathers) | `Util/ReadLog` |
| positions of fdelmodc3D | `fdelmodc3D/readModel3D.c:73-92`, `applySource3D.c` (pressure sources: place, amplitude), `getRecTimes3D.c:33-61` | `Fd3/Place3D` |
| interpolated receivers of fdelmodc3D | `fdelmodc3D/getRecTimes3D.c:69-347` (pressure, stresses, velocities, divergence) | `Fd3/Trilinear` |
| receivers of fdelmodc3D at grid points | `fdelmodc3D/getRecTimes3D.c:350-487` (pressure, vx, vz; not `int_v=1`, stresses, curl) | `Fd3/Direct` |
| recording and sources | `fdelmodc.c` shot and time loops, `getRecTimes.c`, `applySource.c` amplitude, shot list of `getParameters.c` | `Fd/Recording*`, `Receiver`, `Source`, `Shots`, `ShotHistory` |
| makemod | `grid.c`, `gridabove.c`, `linearint.c`, `interpolation.c`, `polint.c`, `spline.c`, the layer loop of `makemod.c` | `Util/*` |
| fconv | `utils/fconv.c`: `convol`, `corr`, `corr3`, `power`, `deconv`, `cohr`, `pad_data`, `scl_data`, the gather loop of `main` | `Conv/*` |
| extrap | `toeplitz.c`, `shortoper.c` without its filter, `weightfunct.c`, `trunc1D.c`, `wrap` of `kxwfilter.c`, the loop over frequencies of `kwExtr.c`, `forwExtr` and `forwExtr_smooth` of `forwExtr.c`, `spline3.c` | `Toep/*`, `Extrap/*` |
| raytime | `vidale.c` (`vidale`, `near_source`, `side`, `corner`, `rm_head`), time and amplitude of the method "fd" in `raytime.c:325-338` | `Ray/*` |
| small programs | `extendModel.c`, `correlate.c`, `gcd_uint.c`, `transpose.h`, `name_ext.c` | `Util/*` |
| zfp | bit streams, negabinary, block order, embedded coder, lifting, integer and floating-point blocks, header, mode settings, strided arrays, promotion, block cache, compressed-array elements, iterators and pointers | `Zfp/*` |

Section 6 gives the model and the theorems property by property.

Simplifications that matter for reading the theorems:

* Finite differences: sources are part of the acoustic time step (`stepS`), not of the elastic one; the amplitude of a source
  in a step is an array element, and division by `l2m` is a product with an array of reciprocals.  Local variables are replaced by their
  expressions.  The moving surface (boundary type 5) is left out; `bnd.surface` is flat.  In the elastic free surface the
  quotient `lam*lam/l2m` is read from an array tied to `lam` and `l2m` by a hypothesis (`FreeMed`), because the expression
  language has no division.
* kiss_fft: a call is atomic, threads alternate call by call.
* Marchenko iteration: response and mute are arbitrary operators; the flat index is split in focal point, trace and sample.
* zfp cache: the compressor enters through laws (`Store.Laws`) that say what decoding an encoded block gives.
* zfp floats are rationals; scaling by powers of two is exact unless it underflows, and then the value becomes 0 either way.

## 4. What is not modelled

* Rounding of floating-point arithmetic, NaN, infinity.
* Files, stdio, SU/SEG-Y headers beyond the fields named in the models, `malloc` failure, MPI transport, timing, messages.
* Schemes other than acoustic4 and elastic4, and acoustic2/6/16 without sources and borders: SH4, ALE4, qr, elastic4dc, elastic6; of the visco-acoustic and
  visco-elastic schemes only the update of the stresses at a point (C97).
* The programs fdelmodc3D (apart from the acoustic and elastic sweeps and the acoustic free surfaces), fdemmodc (apart from the loops of em4), fdacrtmc (apart from imaging and two helpers), raytime (apart from the method "fd"), raytime3d, extrap (apart from the operators in section 3), extrap3d, vmar (apart from the iterations),
  huygens, timematerial, Green-time-variant, the reading and output of marchenko3D and its plane-wave windows, most of utils.
* FFT: `pfa2rc` and `pfa2cr` along dimension 2 (never called) are not modelled.  The static tables
  of `fht` are shared by threads; only one thread is modelled.
* zfp: OpenMP and CUDA execution, strided bit streams, array views, 3-D pointers and references.

## 5. Defects found

Each is proved of the model by the theorem named, except those marked (read), which were only seen while reading.

* getpars: the last byte of a par file is ignored (`last_byte_lost`); a word starting with a quote overruns the word array
  (`leading_quote_overruns`); an empty value looks like an absent parameter (`empty_value_looks_absent`).
* atopkge: unsigned conversions wrap negative texts (`unsigned_wraps`); a stale `errno` rejects valid texts
  (`stale_errno_rejects`).
* optncr/optncc: lengths shorter than asked for (`optn_too_short`, `optncc_too_short_beyond_table`).
* crdft after rcdft is wrong for every even length (`crdft_rcdft_even_wrong`).
* rcm_fft and crm_fft: with `ldr = n1` and `ldc` equal to the number of traces the half spectra are packed `n1/2+1` apart instead of
  `ldc` (`rcm_fft_layout_wrong`).
* fconv: samples of the convolution behind the padded length are added to the beginning (`convol_not_linear`); cor3 computes a
  convolution instead of a correlation (`corr3_wrong`); deconvolution with `eps=reps=0` divides by zero where the spectrum vanishes
  (`deconv_divides_by_zero`); the coherence uses an uninitialised factor at a tie with `epsmax` (`cohr_uninitialised`);
  `ntfft` above `ntmax` overflows an array and is ignored after the first gather (`ntfft_overflows`, `ntfft_forgotten`); a later gather larger
  than the first overflows the read buffer (`later_gather_overflows`); a single trace in the second file is not repeated for additional
  traces of later gathers (`repeated_trace_lost`); `auto=1` writes too many traces for a smaller gather (`auto_extra_traces`).
* kiss_fft: two threads with different signs (`two_threads_wrong_sign`).
* rc1_fft of power-of-two length: one and two points leave the arrays (`pow2_small_out_of_bounds`); from 262144 points on the
  result is wrong because the tables end (`rc1_pow2_large_wrong`), from 4194304 on the tables are left
  (`rc1_pow2_huge_out_of_bounds`).
* applyMute: mode -2 leaves a hole (`gateM2_leaves_hole`); late arrivals break complementarity
  (`theta_psi_not_complementary_late`).
* readShotData: the last sample of a padded trace is lost (`last_sample_lost`); a short transform overflows
  (`short_transform_overflows`).
* getFileInfo: single-trace gathers (`single_trace_gathers`).  synthesisPositions: position -1 (`position_minus_one`).
* fdelmodc recording: a trace spills into the next (`spill_into_next_trace`); shots dropped (`shots_lost`); beams and
  visco-acoustic memory survive between shots (`beams_accumulate`, `visco_memory_survives`); receivers interpolate with the
  wrong neighbour (`vx_to_p_elastic_wrong`, `p_to_vx_wrong`, …); recording at a free surface races (`recording_race`).
* acoustic4: PML at top or bottom with a free or rigid side reads outside the arrays (`step_out_of_bounds`); a rigid wall
  opposite a padded side mirrors at the wrong place (`inner_wall_jumps`); the optimised coefficients are not exact for
  linear fields (`acoustic_slope_wrong`).
* Sources on surfaces: a monopole on a free bottom or right side is wiped in every step and generates no field
  (`bottom_source_lost`, `cleared_source_lost`); a plane wave or source array past the left edge on a free top reads and
  writes before the pressure array (`plane_wave_out_of_bounds`); a silent source on a free surface takes its point out of the
  surface (`silent_source_matters`).
* elastic4: the shear loop uses the range of the normal stresses, so without PML at the left it reads `vz` before the array
  (`elastic_out_of_bounds`), and without PML at the right or bottom the last column or row of the shear stress is never
  updated (`elastic_shear_frozen`).
* Rigid walls are not shifted with the model when another side has a taper or PML: the wall then lies inside the model
  (`elastic_bottom_wall_cuts`, `elastic_right_wall_cuts`) and ends before the last columns (`elastic_bottom_wall_short`).
* readModel, elastic with PML: the first extension copies into the first column and last row of `roz` of the model itself
  (`pml_roz_shifted`, `pml_roz_example`); the shear modulus uses the density of the wrong column (`shear_wrong_density`).
* toeplitz.c: the comment calls the coefficients the first row, the code uses them as first column (`toeplitz_not_row`); order 1
  reads beyond the coefficients (`toeplitz_one`).
* shortoper, weightfunct: an odd number of wavenumbers leaves one weight unset (`weightfunct_odd`); a band beyond the Nyquist
  wavenumber leaves all unset or writes before the array (`weightfunct_unset`, `weightfunct_outside`); an even operator length
  writes one element too far (`trunc1D_even`).
* kwExtr: the padded samples are not cleared between frequencies, so what is recorded at one frequency depends on the data of
  another (`kwExtr_leak`); the Nyquist wavenumber is multiplied twice (`kwExtr_nyquist`).
* forwExtr_smooth: for an odd number of wavenumbers the final rotation is one sample off (`cwrap_odd`).
* raytime: the mean velocity of the method "fd" divides the sum of nr terms by nr-1 (`cpAverage_constant`, `cpAverage_next`).
* recvPar: a vertical line with `dzrcv` only slants (`vertical_slants`); last receiver off the grid (`horizontal_overshoots`,
  `array_not_clipped`); a line of one point is refused (`point_refused`); memory errors (`negative_dx`, `too_many_dx`,
  `shared_spacing_unset`).
* writeSnapTimes: samples of the next column (`snapshot_wrong_column`); with borders one position for all traces
  (`withbnd_same_position`) and reads outside the arrays (`withbnd_vz_out`, `withbnd_vx_out`).
* getBeamTimes: the field is taken `npml` points before its point (`beam_values_partial`); header positions ignore the decimation
  (`beam_position_wrong`).
* corrvir: a virtual source outside the tolerance is used (`tolerance_ignored`), the tolerance is that of the squared distance
  (`tolerance_squared`), `scalco=0` gives the first receiver (`scalco_zero`).
* corrvir: `src_sel=1` leaves out sources far outside the square (`select_square_wrong`), `src_sel=2` takes all sources
  (`select_donut_all`), `src_sel=3,4` none along a line (`select_quadrant_line`), others use a variable without value (`select_unknown`).
* corrvir: `cohr=1` with too few sources aborts (`virtualTrace_few_coherence`); the threads share the position of the input file
  (`read_race`).
* basop: the documented `scaletraces` overruns `choice[10]`, `killof` selects nothing (`dispatch_defects`).
* basop: `hilb` gives half the Hilbert transform (`hilbertTrans_cosine`), `env` of a constant twice the constant
  (`envelope_constant`), `conjg` is one sample late (`conjugate_late`), a shift of zero drops the Nyquist component (`timeShift_zero`).
* basop: `nrot` is ignored and `trot` truncated to seconds (`nrotOf_ignored_partial`), a rotation to the left writes before the array
  (`timeRotate_negative`), `f1` accumulates over gathers (`shiftF1_val`).
* basop: `pad2d_data` misplaces traces and leaves memory uninitialised (`pad2d_misplaced`, `pad2d_uninitialised`).
* basop: `kill` ignores a last number without newline, takes an empty line as 0 and checks no number (`killScan_empty`,
  `killTraces_outside`).  Not modelled, seen when reading: `spaceDiff` with opt<0 uses an unset column, `depthDiff` runs one past its
  arrays, the mirror loop of `decompAcoustic` never runs, `kill_traces` starts with an unset buffer.
* readData: the number of traces of a gather is not compared with the arrays; programs that size them by the first gather overrun them when
  a later one is larger (`readData_overrun`, `filter_larger_gather`); on a pipe the header of the next gather is lost (`readData_pipe`).
* smooth: a power such as 2 loses the sign of the data (`pw_sign`).
* writeRec: a record split over several files is written from beyond the end of the arrays (`run_split`); the number of samples in the
  header is taken modulo 65536 (`expected_ns`).  Seen only: with one receiver `dx` is computed from `rec.x[1]`; up/down separation with
  ischeme 2 writes nothing and with ischeme 3 and 4 closes files never opened.
* defineSource: when the interpolated length is even and has no fast transform (1000 samples at 3 ms for a modelling with 1 ms), the
  `n/4` term of `crdft` adds a spike to every second sample (`wavelet_silent_wrong`); wavelets whose step is no multiple of that of the
  modelling are played too fast or too slow (`resample_steps`, `resample_stretched`); small samples of all wavelets are judged by the
  amplitude of the last one (`cutSmall_silenced`).
* padmodel: with padding in depth the deepest `nzpad` samples of the model are overwritten (`padmodel_bottom_lost`) and with a value the
  padding above the model stays zero (`padmodel_value_misplaced`); truncate: a depth one sample below the model is accepted and reads
  beyond the data (`truncate_last`), the depth of the first sample is refused (`truncate_first_refused`).
* freqwave: `w=mon` without `fp` writes to a negative index (`mon_default_ub`), one frequency above the band is let through
  (`mon_above_ub`), `w=fw` with `fp` given does not check `fmax` (`fw_ub`); `sqrtg2` is attenuated by half the dB asked for
  (`sqrtg2_not_attenuated`); `g1` is zero where its peak should be (`freqwave_g1`).
* marchenko_primaries: passes that reuse the previous sample add the data forward in time to the reversed `k1min`
  (`reuse_actual`, `primaries_reuse_wrong`) and write with an unset index, outside of `M0` for samples up to `shift`
  (`primaries_reuse_ub`); `niterec` of 4 or more counts the update several times (`update_counted_twice`); the taper of the causal window
  follows the mute and has no effect (`early_abrupt`); `file_vmin` for samples before `shift` writes before the trace (`vmin_ub`).
* fmute: with `file_mute` the file is closed after the first gather and read again (`fmute_file_ub`); `itb` is ignored when it is at the local
  maximum (`fmute_itb_ignored`); wider gathers overrun the picks (`fmute_wider_ub`).  readTinvData: the source trace is not checked
  (`tinv_picks_ub`); picks drift on dead traces (`Tracked.drift`).
* mdd: output stride wrong for unequal numbers of traces (`fewer_traces_fails`, `more_traces_mixed`, `corr_more_stop`); `conjgA` applied twice
  (`conjgA_wrong`); sign of the transmission series (`transmission_sign`); `Aprod2_` clears its argument (`aprod2_overwrites`); `mdd=2` overruns
  its scratch matrix (`mdd2_shots_ub`).
* applyMute_plane: with a taper Theta and Psi do not add up at the negative end (`plane_theta_psi_lose`).
* fdacrtmc: Poynting source flux one point off (`poynting_shift`); left-right Hilbert image wrong or out of bounds (`hilbert_leftright_*`); plane-wave imaging uses unset snapshots and wrong times when the image step divides the run (`plane_misaligned`), overruns for even lengths (`plane_mute_overrun`); mode 3 images nothing; image steps of zero grid points divide by zero.
* vmar: the work spectrum keeps the frequencies outside the band of the last trace a thread transformed, so results depend on the number of threads (`threads_matter`); the down-going Green's function uses the old focusing function in its causal half (`green_plus_stale`); more shots than stations read past the frequency (`single_bounds`); `readDataTD` is called with one argument fewer than it is defined with (read).
* marchenko3D: positions lost or repeated for shots that are not in order (`position_lost`, `position_repeated`); windows 0, -2 and 4 leak single samples (`theta3D_leak`, `psi3D_partial`); the cost is summed by all threads without protection (`cost_lost_update`) and called with the sizes of the shots instead of the operators (read); the amplitude of a focal point includes the earlier ones (`ampEst_accumulates`); the Green's function is scaled with a stride without nys (`amp_green_wrong`); the step of the scale factors is only computed with verbose (`scale_quiet`), and no factor is chosen with one iteration (`scale_one_iteration`).
* fdelmodc3D: with a free top and no taper the pressure sweep reads `vz` while other threads still mirror it at the surface (`free_surface_race`; a barrier repairs it, `step_schedule_barrier`); read only: the PML of `boundariesV3D` addresses `p[ix*n1+iz]` without the plane `iy`, and the rigid back wall uses the uninitialised private `iy` (boundaries3D.c:140).
* mutesnap: with opt=1 and a taper every trace whose arrival is later than `shift` reads before the beginning of the taper (`start_outside`).
* mutesnap: the numbers of columns and lines of `fhom` are exchanged, so that with mode 0 or 1 every volume that does not have as many columns as lines is
  refused, in particular every 2D section (`same_volume_refused`).  The size in time of the two files is not compared: a longer `fsnap` overruns its array (read).
* snap2shot: a first number of two or more digits makes the program look for another file than the one named (`names_more_digits`); a name without the number
  dereferences a null pointer (`names_absent`); a digit in a directory name is taken for the number (`names_wrong_digit`).
* reshape_su: the scale factor of coordinates is replaced by -1000 without rescaling the coordinates (`header_position_partial`).
* fdemmodc: iorder=2 reads before the beginning of the magnetic field (`em_order_two`).
* fdemmodc: the work arrays of the electric field belong to a thread, but nothing ties the three loops over rows to the same threads (`em_other_thread`); they
  are never freed (read).  The magnetic constant is `4π·10e-7`, ten times too large (`mu0_ten_times`).
* combine: files are shifted by one sample and not by their thickness, so thicker files overwrite each other and the end of the volume is zero (`combine_thick`).
  A first number of two or more digits reads other files than the one named (`combine_name_more`).  Positions are rounded to whole metres (`combine_gx_wrong`).
* makemod: a square diffractor, the default, of one grid point is not in the model at all (`square_one_empty`).  A diffractor at the edge of the model writes
  outside the grid (`diffraction_edge`).
* extend3D: an interface at the bottom of the model, or above its top, makes the program leave its arrays (`extend_outside`).
* combine_induced: an even number of snapshots reads after the end of the input (`induced_even`); more files than traces write after the end of three arrays
  (`induced_many_files`); the threads update the shared sum without synchronisation (`induced_race`).
* makeR1D: the output spacing is cut to whole metres (`response_fraction`, `response_small_spacing`).  Records that are not centred at zero, or sources on a
  coarser grid, make it read outside the input (`response_one_sided`, `response_factor`).
* basop kxwfilter: with a negative `perc` the taper is not limited to the Nyquist wavenumber and is written before the table (`filter_aliased`).
* getModelInfo: a horizontal spacing other than the vertical one is replaced by it, with a warning (`info_spacing_square`).
* convhomg: the middle sample of a wavelet with an odd number of samples is lost (`circle_odd`); a deconvolution wavelet longer than the circle is mixed
  (`circle_mixed`) or written outside its array (`circle_long`).
* fdemmodc: the magnetic constant is written `4.0*M_PI*10e-7`, ten times too large, and the electric constant follows as a tenth (`constants_wrong`); the
  velocity is not affected (`wave_velocity`).
* green: a line of receivers that turns back writes after its arrays (`receivers_back`); one that goes to the left has no valid size (`receivers_left`); a
  vertical one has only its last point (`receivers_vertical`).
* roughint: one element of the spectrum is never set (`rough_unset`), and the negative wavenumbers are not weighted (`rough_unweighted`).
* readlog: lines closer than a sample are followed one per sample, so the samples lag behind the log (`log_thin`); a log of one line is read after its end
  (`log_one`).
* mat2su: a last gather that is not whole is completed with the numbers of the one before (`mat2su_short`).
* fdelmodc3D: sources and receivers test `bnd.bac==4 || bnd.fro==2` where the model tests `bnd.fro==4 || bnd.fro==2`; with a taper at one of the two sides only
  they are displaced by the length of the layer (`place_front_only`, `place_back_only`).  A source one node after the model is used (`place_outside`).
* fdelmodc3D, `rec_int_p=3`: the recorded `vx` is interpolated from the array `vy` (getRecTimes3D.c:331-338), so it does not depend on `vx` (`recVx_ignores`, `recVx_node`, `recVx_wrong`).
  `vy` and `vz` are recorded half a grid point past the receiver (`recV_half`); the divergence divides all differences by `dx` (`recPP_linear`, `recPP_wrong`).
* fdelmodc3D at grid points: `vy` is never recorded (`record_vy`); `rec_int_vx=2` reads `vx[ix2*n1+iz]` without `iy*n1*n2`, from the first plane of the array (getRecTimes3D.c:474,
  `recVx_error`); `rec_int_p=2` uses `l2m` of one node for both (line 393, `recP_x_error`).
* readModel: a density or S velocity file with too few traces leaves columns that were never set (`short_file_undefined`).
* visco schemes: with several `fw` the modulus is multiplied by their number (`modulus_multiplied`), and the visco-elastic scheme
  writes outside its arrays (`relax_overflow`); the visco-elastic scheme uses help variables that were never set in the last row
  (`shear_uninitialised`) and never updates the last column of the shear stress (`shear_last_column`).
* stability: the check admits Courant numbers up to 0.606 for order 4 and 6, but the coefficients of acoustic4.c and acoustic6.c are
  stable up to 0.6033 and 0.5695 only (`accepted_unstable`); it ignores the density, and from order 4 on strong density contrasts
  are unstable for every time step (`no_time_step`, `accepted_unstable_density`); a first trace of zeroes hides the smallest velocity
  (`air_column_refused`, `slow_shear_accepted`).
* acoustic2: the columns of `vz` are taken from the range of the rows (`columns_missed`, `tall_outside`).
* sources: last wavelet sample never applied (`last_sample_silent`); random signals read beyond the buffer (`random_overrun`).
* gcd_uint never returns (`gcd_uint_diverges`); transpose overruns and races (`transpose_overruns`,
  `transpose_shared_j_race`); coherence above one (`coherence_above_one`).
* name_ext: first occurrence replaced, directory names cut, overflow (`name_ext_cut`, `name_ext_directory`,
  `name_ext_overflow`).
* makemod: `linear_interface_drifts`, `linear_interface_outside`, `linear_interface_one_point`, `grid_gradient_spills`,
  `grid_gradient_outside`, `grid_gradient_overshoots`, `grid_above_outside`, `lateral_shifts`, `lateral_two_outside`.
* zfp: `accuracy_violated`, `tiny_block`, `budget_violated`, `maximum_size_wraps`, `maximum_size_violated`,
  `default_strides_violated`, `loop_never_ends`, `metadata_truncated`, `cache_tag_wraps`, `pointer2_wraps`, `blocks_wrap`.
* (read) `ntaper=` is always overridden (getParameters.c:379-380); recvPar `dxr[i]=dx` with the wrong index; writeSnapTimes
  index -1; storeSourceOnSurface `orient==4`; plane waves with `multiwav=0` overflow `nsamp` when `nsrc>1`; `readTinvData.c`
  tracks without a clamp; extrap/lib/getpars.c allocates `strlen` bytes for a
  string and its zero.

