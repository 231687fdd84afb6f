{"id": "C01", "title": "Last occurrence wins; command line overrides par file", "statement": "After initargs, getparint/getparfloat/getparstring(name) deliver the value of the last 'name=value' word given on the command line, and only if there is none the last such word of the par= file; words of other names, in any order and number, never influence the result.", "quantifier": "every command line, every par-file word list, every parameter name", "why_tests_cant": "The set of argument lists is unbounded, and a test only samples some orders of repeated and interleaved words.", "anchors": ["fdelmodc/getpars.c: getparinit, tabulate, getparindex, countparname, getnpar"]}
{"id": "C02", "title": "An absent parameter leaves the caller's default untouched", "statement": "If no word of the argument list has the given name then the getpar call returns 0 and stores nothing through the caller's pointer; if one has, the call returns at least 1 (non-string types) and overwrites exactly the first (returned count) elements.", "quantifier": "every argument table, every name, every caller buffer", "why_tests_cant": "Universally quantified over all argument tables and prior buffer contents.", "anchors": ["fdelmodc/getpars.c: getnpar, getparindex"]}
{"id": "C03", "title": "Comma lists are delivered completely and in order", "statement": "For every list of integers v1..vn (n>=1, each in int range), a parameter given as 'name=v1,v2,...,vn' makes getparint return n and fill the array with v1..vn in this order, and countparval returns n.", "quantifier": "every non-empty list of integers of every length", "why_tests_cant": "Unbounded number and size of list elements.", "anchors": ["fdelmodc/getpars.c: getnpar, countnparval, ccount; fdelmodc/atopkge.c: eatoi"]}
{"id": "C04", "title": "Every word of a par file is seen", "statement": "Each blank/newline separated name=value word of a par file becomes visible to getpar, whatever the blank pattern and whether or not the file ends in a newline.", "quantifier": "every par-file content", "why_tests_cant": "All byte contents of a file; the failing ones are corner cases at the end of the file.", "anchors": ["fdelmodc/getpars.c: getparinit, white2null"]}
{"id": "C05", "title": "optncr/optncc/optnfft lengths are never too short", "statement": "The FFT length chosen for nt samples is at least nt, so the data fits the transform buffer.", "quantifier": "every requested length n>=0", "why_tests_cant": "Infinitely many lengths; the failures occur only beyond the tables.", "anchors": ["FFTlib/optnumber.c: optncc, optncr", "FFTlib/pfafft.c: npfa, npfar", "FFTlib/pfaconst.h"]}
{"id": "C06", "title": "npfa/npfar return the smallest valid length", "statement": "Up to the table limit npfa(n) (npfar(n)) is the least valid prime-factor length >= n, each valid length is a product of mutually prime factors from {2,3,4,5,7,8,9,11,13,16} (npfar: twice one), and the function is monotone and idempotent.", "quantifier": "every n", "why_tests_cant": "Quantified over every n; minimality is a statement about all shorter lengths.", "anchors": ["FFTlib/pfafft.c: npfa, npfar", "FFTlib/pfaconst.h"]}
{"id": "C07", "title": "kiss_fft factorisation multiplies back to n", "statement": "The plan built for n points contains stages (p_i,m_i) with m_i the product of the later radices, the product of all radices equal to n, every radix is 4 or a prime (the factorisation is complete), and the number of stages bounded so the factor array is not overrun.", "quantifier": "every transform length n>=1", "why_tests_cant": "All lengths; includes large primes and prime powers.", "anchors": ["FFTlib/kiss_fft.c: kf_factor, kiss_fft_alloc"]}
{"id": "C08", "title": "kiss_fft computes the discrete Fourier transform", "statement": "For every length and every input the output bin k equals the sum over j of x_j exp(-/+ 2 pi i j k/n).", "quantifier": "every length n>=1, every input vector, both signs", "why_tests_cant": "Mixed-radix recursion with 5 butterfly kinds: infinitely many factorisations and inputs.", "anchors": ["FFTlib/kiss_fft.c: kf_bfly2, kf_bfly3, kf_bfly4, kf_bfly5, kf_bfly_generic, kf_work, kiss_fft"]}
{"id": "C09", "title": "The sign argument of the complex FFT is honoured for every call history", "statement": "A call of the cached complex FFT with sign s transforms with exponent sign s regardless of lengths and signs of earlier calls and of the thread that made them.", "quantifier": "every history of calls by every number of threads", "why_tests_cant": "The failure needs a particular interleaving of calls of several threads with changing sign.", "anchors": ["FFTlib/kiss_fft.c: kiss_fft_alloc, previous_sign", "FFTlib/cc1fft.c"]}
{"id": "C10", "title": "Forward followed by inverse complex transform is n times the identity", "statement": "Applying the transform with sign +1 and then -1 returns n times the input, for every input.", "quantifier": "every n>=1 and input vector", "why_tests_cant": "Holds for all vectors and lengths; sampling cannot establish it.", "anchors": ["FFTlib/kiss_fft.c", "FFTlib/cc1fft.c"]}
{"id": "C11", "title": "Real-to-complex and complex-to-real DFT round trip", "statement": "crdft(rcdft(x)) = n*x for every real trace x.", "quantifier": "every n>=1, every real vector", "why_tests_cant": "The defect depends on the parity of n for all inputs.", "anchors": ["FFTlib/lib_fft.c: rcdft, crdft"]}
{"id": "C12", "title": "The two muting windows are complementary", "statement": "For the time gates used by the Marchenko iteration, applying gate 'above=0' and gate 'above=4' (its documented inverse) to the same trace and adding the results gives back the trace, sample for sample.", "quantifier": "every trace, every mute time, shift and smooth length within the window", "why_tests_cant": "Four integer parameters plus arbitrary data; off-by-one errors at the window edges only appear for particular combinations.", "anchors": ["marchenko/applyMute.c: applyMute", "marchenko/mapj.c: mapj"]}
{"id": "C13", "title": "Muting never touches samples on the kept side", "statement": "A mute sets all samples on the muted side of the window to zero, leaves all samples on the kept side bit-identical, scales only the smooth samples in between with factors strictly between 0 and 1, and touches no other trace.", "quantifier": "every data cube, gather, trace and window setting", "why_tests_cant": "Window placement for all parameter combinations including wrap-around.", "anchors": ["marchenko/applyMute.c: applyMute"]}
{"id": "C14", "title": "Circular time index stays inside the trace", "statement": "The periodic sample index used by all muting windows lies in [0,nt) and is congruent to the requested index modulo nt.", "quantifier": "every index used and every nt", "why_tests_cant": "Quantified over all integers; single wrap only covers part of them.", "anchors": ["marchenko/mapj.c: mapj"]}
{"id": "C15", "title": "Time reversal is an involution", "statement": "Reading an operator time-reversed twice, or forming Ni(-t) twice, returns the original trace; sample 0 is fixed.", "quantifier": "every trace length and trace", "why_tests_cant": "All lengths and contents.", "anchors": ["marchenko/readTinvData.c: readTinvData", "marchenko/marchenko.c: main (Ni(-t))"]}
{"id": "C16", "title": "Rotating output time to the middle loses no sample", "statement": "With rotate=1 the written trace is a circular shift of the computed one: every sample appears exactly once.", "quantifier": "every trace length and content", "why_tests_cant": "Depends on parity of the length.", "anchors": ["marchenko/marchenko.c: main (rotate)"]}
{"id": "C17", "title": "All samples of a shot record are used", "statement": "Reading shot data into the frequency domain transforms exactly the recorded samples followed by zeros.", "quantifier": "every nt, ntfft>=nt and data", "why_tests_cant": "The lost sample is only seen if a test looks at that sample.", "anchors": ["marchenko/readShotData.c: readShotData"]}
{"id": "C18", "title": "Gather counting", "statement": "getFileInfo reports the number of gathers as the number of maximal runs of traces with equal source coordinate (and shot number), and the maximal gather length as the longest run.", "quantifier": "every sequence of trace headers", "why_tests_cant": "Unbounded sequence of headers.", "anchors": ["marchenko/getFileInfo.c: getFileInfo"]}
{"id": "C19", "title": "Synthesis positions are a duplicate-free increasing list", "statement": "The list of lateral positions at which the synthesis result is defined is strictly increasing, contains every in-aperture shot position once, and nothing else.", "quantifier": "every acquisition geometry", "why_tests_cant": "Arbitrary geometries with repeated and unordered shots.", "anchors": ["marchenko/synthesis.c: synthesisPositions, linearsearch"]}
{"id": "C20", "title": "Synthesis result does not depend on the thread schedule", "statement": "Shots processed in parallel give the same result in every order, provided the shots fall on different lateral positions; if two shots share a position the update is not atomic and a schedule exists that loses a contribution.", "quantifier": "every interleaving of the parallel shot loop", "why_tests_cant": "Schedules cannot be enumerated by a test.", "anchors": ["marchenko/synthesis.c: synthesis"]}
{"id": "C21", "title": "Marchenko iteration invariant", "statement": "After every number of iterations the down- and up-going focusing functions are the alternating sums of the terms Ni (even terms time reversed), and f2 is the sum of all terms.", "quantifier": "every number of iterations, every reflection operator and every first arrival", "why_tests_cant": "By induction on the iteration count, for all operators.", "anchors": ["marchenko/marchenko.c: main (iteration loop)"]}
{"id": "C22", "title": "Every shot is modelled by exactly one MPI process", "statement": "For every number of shots and processes, the half open shot ranges of the processes are disjoint and cover all shots.", "quantifier": "every number of processes and shots", "why_tests_cant": "All pairs of counts; the error is in the remainder.", "anchors": ["fdelmodc/fdelmodc.c: main (npeshot, is0, is1)"]}
{"id": "C23", "title": "Receiver recording stays inside the trace and records every step once", "statement": "During a run each recorded time step goes to a sample index inside the allocated trace, distinct steps to distinct samples, consecutive recorded steps to consecutive samples.", "quantifier": "every nt, delay, skip, rec_ntsam", "why_tests_cant": "Arithmetic on four integers over an unbounded number of time steps.", "anchors": ["fdelmodc/fdelmodc.c: main (recording block)", "fdelmodc/getRecTimes.c", "fdelmodc/getParameters.c: rec.nt"]}
{"id": "C24", "title": "Shots are modelled independently", "statement": "The recording of a shot is the same whether or not other shots were modelled before it in the same run.", "quantifier": "every history of shots, model and scheme", "why_tests_cant": "History-dependence; only visible for particular schemes.", "anchors": ["fdelmodc/fdelmodc.c: main (memset of wavefields between shots)"]}
{"id": "C25", "title": "All requested shots that fit in the model are modelled", "statement": "The number of shots kept equals the number of leading shot positions inside the model.", "quantifier": "every shot line and model size", "why_tests_cant": "The off-by-one only shows up when the shot line leaves the model.", "anchors": ["fdelmodc/getParameters.c: shot positions"]}
{"id": "C26", "title": "Finite difference sweeps touch only allocated grid points", "statement": "For every grid size, boundary type and taper width, all array elements read or written by an acoustic time step lie inside the nax*naz arrays.", "quantifier": "every grid size, taper and boundary setting", "why_tests_cant": "Unbounded sizes.", "anchors": ["fdelmodc/acoustic4.c: acoustic4", "fdelmodc/getParameters.c: ioX..ieT"]}
{"id": "C27", "title": "The acoustic time step is linear", "statement": "Without source a time step of a superposition of wavefields is the superposition of the time steps; in particular the zero field stays zero.", "quantifier": "every wavefield, model, number of steps", "why_tests_cant": "All fields and all step counts.", "anchors": ["fdelmodc/acoustic4.c: acoustic4"]}
{"id": "C28", "title": "Parallel sweep is schedule independent", "statement": "The OpenMP-parallel loops over x of a time step give the same result for every execution order of the columns.", "quantifier": "every permutation of the iterations", "why_tests_cant": "All schedules.", "anchors": ["fdelmodc/acoustic4.c: acoustic4"]}
{"id": "C29", "title": "Finite speed of the discrete wave", "statement": "After n time steps the wavefield is zero at every grid point further than the stencil reach times n from the support of the initial field.", "quantifier": "every model, support and n", "why_tests_cant": "Induction over all time steps.", "anchors": ["fdelmodc/acoustic4.c: acoustic4"]}
{"id": "C30", "title": "Source wavelet interpolation stays within the wavelet", "statement": "At every modelled time the source amplitude is read from the wavelet samples of that source and linear interpolation reproduces the samples at the sample times.", "quantifier": "every source, time step, wavelet length", "why_tests_cant": "Edge samples depend on rounding of nsamp.", "anchors": ["fdelmodc/applySource.c: applySource", "fdelmodc/getParameters.c: wav.nsamp"]}
{"id": "C31", "title": "Receiver interpolation is the average it claims to be", "statement": "The staggered components recorded on another grid are the arithmetic mean of the neighbouring grid values.", "quantifier": "every wavefield and receiver position", "why_tests_cant": "All fields.", "anchors": ["fdelmodc/getRecTimes.c: getRecTimes"]}
{"id": "C32", "title": "Bit stream round trip", "statement": "Whatever sequence of bit fields is written to a bit stream and flushed, reading the same widths after rewind returns the same values; the write position equals the sum of the widths.", "quantifier": "every sequence of writes", "why_tests_cant": "Unbounded sequences and all word alignments.", "anchors": ["zfp/include/zfp... inline/bitstream.c: stream_write_bit, stream_write_bits, stream_read_bit, stream_read_bits, stream_flush, stream_rewind, stream_wtell, stream_rtell"]}
{"id": "C33", "title": "Bit stream positioning", "statement": "After seeking for reading to any position inside the written bits, the reads deliver the bits from that position; seeking for writing followed by writes and flush leaves earlier bits unchanged.", "quantifier": "every stream and position", "why_tests_cant": "All positions across word boundaries.", "anchors": ["zfp/src/inline/bitstream.c: stream_rseek, stream_wseek, stream_pad, stream_skip, stream_align"]}
{"id": "C34", "title": "Negabinary mapping is a bijection", "statement": "The signed/unsigned coefficient conversion loses nothing in either direction and small magnitudes map to few bit planes.", "quantifier": "every 32 and 64 bit word", "why_tests_cant": "2^64 values.", "anchors": ["zfp/src/template/encode.c: int2uint", "zfp/src/template/decode.c: uint2int"]}
{"id": "C35", "title": "Coefficient order is a permutation", "statement": "Reordering of the block coefficients by sequency visits every coefficient exactly once in 1, 2, 3 and 4 dimensions, so forward and inverse reorder cancel.", "quantifier": "every block content", "why_tests_cant": "All contents.", "anchors": ["zfp/src/template/codec1.c..codec4.c: perm", "zfp/src/template/encode.c: fwd_order", "zfp/src/template/decode.c: inv_order"]}
{"id": "C36", "title": "Embedded coder round trip", "statement": "Decoding the bit planes of an encoded integer block with the same precision and enough bits returns the coefficients truncated to the kept bit planes, and reads exactly as many bits as the encoder wrote.", "quantifier": "every block size, content, maxprec", "why_tests_cant": "All contents of 4..256 words.", "anchors": ["zfp/src/template/encode.c: encode_ints", "zfp/src/template/decode.c: decode_ints"]}
{"id": "C37", "title": "The bit budget is obeyed", "statement": "The coder never writes more than maxbits bits per block, and the decoder given the same budget reads exactly the number of bits written, so blocks stay aligned.", "quantifier": "every block and budget", "why_tests_cant": "All budgets cut the stream at every possible position.", "anchors": ["zfp/src/template/encode.c: encode_ints", "zfp/src/template/decode.c: decode_ints"]}
{"id": "C38", "title": "Block transform error is bounded", "statement": "The inverse lifting step undoes the forward lifting step up to a few units in the last place.", "quantifier": "every 4-vector of integers", "why_tests_cant": "All integer inputs.", "anchors": ["zfp/src/template/encode.c: fwd_lift", "zfp/src/template/decode.c: inv_lift"]}
{"id": "C39", "title": "Header round trip", "statement": "Field type, dimensions and compression parameters written to a header are read back unchanged, for all values representable in the format.", "quantifier": "every field metadata and mode", "why_tests_cant": "All combinations of sizes.", "anchors": ["zfp/src/zfp.c: zfp_field_metadata, zfp_field_set_metadata, zfp_stream_mode, zfp_stream_set_mode"]}
{"id": "C40", "title": "Integer promotion round trip", "statement": "Promoting 8 or 16 bit integers and demoting them returns the original values; demotion of out of range values saturates.", "quantifier": "every block", "why_tests_cant": "All values and block sizes.", "anchors": ["zfp/src/zfp.c: zfp_promote_int8_to_int32, zfp_demote_int32_to_int8, ..."]}
{"id": "C41", "title": "Block cache is transparent", "statement": "Reads of a compressed array through its write-back cache return the last value written (up to the codec), and after flush every dirty line has been written back exactly once.", "quantifier": "every sequence of accesses and every cache size", "why_tests_cant": "All histories, evictions and collisions.", "anchors": ["zfp/array/zfp/cache.h: Cache::access, lookup, flush", "zfp/array/zfparray2.h: line, flush_cache"]}
{"id": "C42", "title": "Polynomial interface passes through its points", "statement": "Polynomial interpolation of the interface points evaluates the unique polynomial through the points; at a given point it returns its depth.", "quantifier": "every number of distinct points", "why_tests_cant": "All point sets.", "anchors": ["utils/polint.c: polint"]}
{"id": "C43", "title": "Spline interface passes through its points", "statement": "The spline evaluated at an interface point returns its depth, and the bisection selects the interval containing x.", "quantifier": "every increasing point set and every x", "why_tests_cant": "All point sets.", "anchors": ["utils/spline.c: spline, splint"]}
{"id": "C44", "title": "gcd_uint terminates with the greatest common divisor", "statement": "gcd_uint(u,v) returns gcd(u,v) for every pair of unsigned integers.", "quantifier": "every pair", "why_tests_cant": "Non-termination cannot be observed by a finite test.", "anchors": ["fdacrtmc/gcd_uint.c: gcd_uint"]}
{"id": "C45", "title": "Extending a model repeats the edges and keeps the interior", "statement": "The extended model has nbefore+nx+nafter traces of nabove+nz+nbelow samples, the original is found unchanged in the middle and every other sample equals the nearest sample of the original.", "quantifier": "every model and extension", "why_tests_cant": "All sizes and contents.", "anchors": ["utils/extendModel.c: main"]}
{"id": "C46", "title": "Correlation is the conjugate product; coherence has modulus at most one", "statement": "Every output spectrum sample is conj(master)*slave; with normalisation the modulus never exceeds one where the denominator is non zero.", "quantifier": "every pair of spectra", "why_tests_cant": "All inputs.", "anchors": ["corrvir/correlate.c: correlate, coherence"]}
{"id": "C47", "title": "Blocked transpose is the transpose and stays in the buffer", "statement": "Transposing with blocks gives B[j][i]=A[i][j] for all i,j and accesses no element outside the n by m matrix, for every block size.", "quantifier": "every n, m, leading dimension and block size", "why_tests_cant": "All sizes, in particular non multiples of the block size.", "anchors": ["fdacrtmc/transpose.h: transpose_block, transpose_scalar_block"]}
{"id": "C48", "title": "First-break tracking", "statement": "Tracking the first arrival through a shot always yields times inside the trace, moves at most hw samples from trace to trace and picks the maximum absolute amplitude of its search window.", "quantifier": "every shot record and window", "why_tests_cant": "All data.", "anchors": ["marchenko/findFirstBreak.c: findFirstBreak"]}
{"id": "C49", "title": "String-to-number conversion never wraps", "statement": "The eato* conversions return the exact value of the text if it is in the range of the target type, and otherwise report the error instead of returning a wrapped value.", "quantifier": "every text", "why_tests_cant": "All texts and ranges.", "anchors": ["fdelmodc/atopkge.c: eatoh, eatou, eatoi, eatop, eatol, eatov"]}
{"id": "C50", "title": "Output file names keep the base name", "statement": "name_ext inserts the extension before the .su suffix and leaves every other character of the name.", "quantifier": "every file name and extension", "why_tests_cant": "All strings.", "anchors": ["fdelmodc/name_ext.c: name_ext"]}
{"id": "C51", "title": "The interior of the model obeys the leapfrog scheme", "statement": "At every grid point of the model, away from rigid walls and free surfaces, one time step advances the particle velocities by the density-scaled staggered pressure differences of the old field, and then the pressure by the stiffness-scaled divergence of the new velocities; every point is updated exactly once.", "quantifier": "every grid, boundary setting, medium, wavefield, time step and grid point", "why_tests_cant": "All fields, sizes and boundary combinations.", "anchors": ["fdelmodc/acoustic4.c: acoustic4", "fdelmodc/boundaries.c: boundariesP, boundariesV"]}
{"id": "C52", "title": "Free surfaces carry no pressure", "statement": "After every time step the pressure at the points of a free surface is exactly zero.", "quantifier": "every grid, boundary setting, medium, wavefield, time step", "why_tests_cant": "All fields and step counts.", "anchors": ["fdelmodc/boundaries.c: boundariesV"]}
{"id": "C53", "title": "Staggered differences are exact derivatives of smooth fields", "statement": "The four-point staggered difference used by the schemes returns exactly the grid step times the derivative for every polynomial of degree at most four.", "quantifier": "every polynomial, position and grid step", "why_tests_cant": "A continuum of fields.", "anchors": ["fdelmodc/acoustic4.c: c1, c2", "fdelmodc/elastic4.c: c1, c2", "fdelmodc/boundaries.c: c1, c2"]}
{"id": "C54", "title": "Compressed blocks decode to nearby values and fixed-rate blocks can be read in any order", "statement": "Blocks compressed one after the other take a number of bits between the minimum and the maximum set on the stream, decompress in the same order from the same positions, and return every value up to an error that is determined by the number of bit planes kept. When minimum and maximum are equal every block takes exactly that many bits and any block can be read alone after seeking to its number times that size.", "quantifier": "every sequence of integer blocks of one to four dimensions, every rate and precision, every stream word size", "why_tests_cant": "All block contents and all rates; an off-by-one in the bit accounting shows only for particular contents.", "anchors": ["zfp/src/template/encode.c: encode_block", "zfp/src/template/decode.c: decode_block", "zfp/src/template/encodei.c: zfp_encode_block", "zfp/src/template/decodei.c: zfp_decode_block"]}
{"id": "C55", "title": "Compressed floating-point blocks stay within their bit budget and their tolerance", "statement": "A compressed block of floating-point values takes at least the minimum and at most the maximum number of bits set on the stream and decompresses from the same position. The values returned differ from the originals by at most an amount given by the common exponent and the bit planes kept; in fixed-accuracy mode that amount is at most the tolerance unless the tolerance is below what the integer precision resolves.", "quantifier": "every finite block of floats or doubles of one to four dimensions, every parameter setting, every stream word size", "why_tests_cant": "The error bound must hold for all values, all exponents and all tolerances; the worst cases are rare alignments of exponent, tolerance and rounding.", "anchors": ["zfp/src/template/encodef.c: zfp_encode_block, fwd_cast, exponent_block", "zfp/src/template/decodef.c: zfp_decode_block, inv_cast", "zfp/src/template/codecf.c: precision"]}
{"id": "C56", "title": "Rate, precision and tolerance settings do what they say", "statement": "Setting a tolerance selects the largest power of two that does not exceed it, returns that power, and blocks compressed with it differ from the originals by at most the tolerance. Setting a rate gives blocks of exactly the returned rate times the number of values, the nearest whole number of bits to the request unless the type needs more or word alignment is asked for, and then the next multiple of the word. Setting a precision selects that number of bit planes. The settings survive a header.", "quantifier": "every tolerance, rate, precision, type and dimension", "why_tests_cant": "A continuum of rates and tolerances; the error bound involves every block.", "anchors": ["zfp/src/zfp.c: zfp_stream_set_rate, zfp_stream_set_precision, zfp_stream_set_accuracy"]}
{"id": "C57", "title": "A buffer of the maximum size always suffices", "statement": "Compressing a field, with or without a header, never writes beyond the number of bytes returned by zfp_stream_maximum_size for that field and those parameters.", "quantifier": "every field size, type, content and parameter setting", "why_tests_cant": "All contents and sizes; the worst case content is rare and an overrun is silent.", "anchors": ["zfp/src/zfp.c: zfp_stream_maximum_size, zfp_compress, zfp_write_header"]}
{"id": "C58", "title": "Compressing and decompressing an array covers every element once and nothing else", "statement": "For arrays of one to four dimensions of any size and with any strides, compression reads only elements of the array, decompression writes every element of the array and no other location, and every element is returned from the block and position it was compressed in, also in partial blocks at the edges.", "quantifier": "every array size, including sizes that are not multiples of four, and every stride for which elements do not overlap", "why_tests_cant": "All sizes and strides; errors at partial blocks and with negative strides.", "anchors": ["zfp/src/template/compress.c: compress_strided", "zfp/src/template/decompress.c: decompress_strided", "zfp/src/template/encode2.c: gather, gather_partial", "zfp/src/template/decode2.c: scatter, scatter_partial", "zfp/src/template/encode.c: pad_block"]}
{"id": "C59", "title": "An interface of makemod goes through the given points", "statement": "The depth of an interface in every grid column is the value of the chosen interpolation (piecewise linear, polynomial or natural-end cubic spline) through the given points, in every column between the first and the last point, and the reported column range is exactly that range. No element outside the depth array is written.", "quantifier": "every number and position of points, depth values, grid size and spacing", "why_tests_cant": "All point sets; errors show only for points off the grid or outside the model.", "anchors": ["utils/interpolation.c: interpolation", "utils/polint.c: polint", "utils/spline.c: spline, splint"]}
{"id": "C60", "title": "Filling the model below or above an interface changes exactly the cells on that side", "statement": "After an interface is added, every cell of its columns at or below the interface (or above it) has the medium value of the interface, with a gradient the value that increases with depth, or varies over the gradient zone from the old to the new value, and all other cells are unchanged. Nothing outside the model grid is written.", "quantifier": "every interface depth, grid size, column range and gradient length", "why_tests_cant": "All depths including the edges of the grid, where the loops overrun into neighbouring columns.", "anchors": ["utils/grid.c: grid", "utils/gridabove.c: gridabove", "utils/linearint.c: linearint"]}
{"id": "C61", "title": "A layered model has in every cell the value of the last layer that covers it", "statement": "A model built from a background value and a list of interfaces has in each cell the value of the last listed interface whose columns contain the cell and which lies at or above it, and the background value where there is none.", "quantifier": "every list of interfaces, every cell, every grid size", "why_tests_cant": "Unbounded lists of interfaces that cross and overlap.", "anchors": ["utils/makemod.c: main", "utils/grid.c: grid", "utils/interpolation.c: interpolation"]}
{"id": "C62", "title": "Velocities given along an interface are interpolated between the points", "statement": "With one velocity per interface it holds in all columns. With a velocity for every point the velocity in each column is linear between the velocities of the points on either side, columns outside the points keep their velocity, and the velocity above the interface is the one of the previous layer.", "quantifier": "every number of points, positions, velocities and grid size", "why_tests_cant": "All point positions; neighbouring points and points off the grid shift all the following values.", "anchors": ["utils/interpolation.c: interpolation"]}
{"id": "C63", "title": "Elements, iterators and pointers of compressed arrays", "statement": "Every element of a compressed 1-, 2- or 3-D array has its own place in a block; element reads and writes through the cache are those of an ordinary array (up to the codec); iterating from begin() to end() visits every element exactly once; pointer arithmetic is that of a flat array.", "quantifier": "every array size, every element, every sequence of accesses, every cache size", "why_tests_cant": "Partial blocks, all sizes and all histories.", "anchors": ["zfp/array/zfparray1.h, zfparray2.h, zfparray3.h: block, CacheLine::index, get, set", "zfp/array/zfp/iterator2.h, iterator3.h: increment", "zfp/array/zfp/pointer2.h"]}
{"id": "C64", "title": "Elastic modelling stays inside its arrays", "statement": "No elastic time step reads or writes outside the wave-field, medium, taper and PML arrays. (Proved for a PML at the left; without it the shear loop reads before the array, proved too.)", "quantifier": "every grid size, absorbing width of at least 5, boundary setting, medium and number of steps", "why_tests_cant": "An access just outside an array normally reads a neighbouring value and shows nothing.", "anchors": ["fdelmodc/elastic4.c: elastic4", "fdelmodc/boundaries.c: boundariesP, boundariesV"]}
{"id": "C65", "title": "Elastic wave propagation is linear", "statement": "Propagating a superposition of elastic wave fields gives the superposition of the propagated fields; the field at rest stays at rest; the medium is never written.", "quantifier": "every grid, boundary setting, medium, pair of fields, pair of factors and number of steps", "why_tests_cant": "All fields and media; a single term that is not linear shows only for some amplitudes.", "anchors": ["fdelmodc/elastic4.c: elastic4", "fdelmodc/boundaries.c: boundariesP, boundariesV"]}
{"id": "C66", "title": "Elastic modelling does not depend on the number or timing of threads", "statement": "Every schedule of the threads of the parallel loops of an elastic time step gives the result of the sequential program.", "quantifier": "every grid, boundary setting, number of steps and interleaving of single memory accesses between barriers", "why_tests_cant": "Schedules are chosen by the system; a race appears rarely.", "anchors": ["fdelmodc/elastic4.c: elastic4", "fdelmodc/boundaries.c: boundariesP, boundariesV"]}
{"id": "C67", "title": "Inside the model elastic modelling is the fourth-order staggered leapfrog scheme", "statement": "Inside the model every step advances the particle velocities with staggered differences of the old stresses, and the stresses with staggered differences of the new velocities.", "quantifier": "every grid, boundary setting, medium, field, step and interior point", "why_tests_cant": "Every combination of boundaries must leave the interior alone; all points and all steps.", "anchors": ["fdelmodc/elastic4.c: elastic4", "fdelmodc/boundaries.c: boundariesP, boundariesV"]}
{"id": "C68", "title": "Elastic free surfaces are stress free", "statement": "After every step the normal stress across a free surface vanishes on it, the shear stress is antisymmetric about it, and the normal stress along it satisfies the stress-free relation with the derivative of the velocity along the surface.", "quantifier": "every grid, every choice of free sides, every medium, field and step", "why_tests_cant": "Later sides overwrite corners of earlier ones; all combinations, all steps.", "anchors": ["fdelmodc/boundaries.c: boundariesV"]}
{"id": "C69", "title": "Real transforms of power-of-two length are the discrete Fourier transform", "statement": "For every power-of-two length the real-to-complex transform with sign s returns the first n/2+1 values of the DFT with that sign, the complex-to-real transform of a Hermitian spectrum returns its DFT, and one after the other with opposite signs returns n times the input, whatever was transformed before.", "quantifier": "every length n=2^m, both signs, every trace and spectrum, every history of earlier calls (the trigonometric tables are static)", "why_tests_cant": "All lengths, inputs and histories; the failing lengths are far beyond those in tests.", "anchors": ["FFTlib/lib_fft.c: rc1_fft, cr1_fft", "FFTlib/fft_mayer.c: fht, realfft, realifft", "FFTlib/trigtbl.h"]}
{"id": "C70", "title": "Tapered zones apply the taper of their depth", "statement": "In an elastic run with tapered sides, at every velocity point of a tapered zone that no rigid wall writes, a time step gives the staggered-grid update of the velocity multiplied by the taper value that belongs to the distance of the point from the model, with the two-dimensional taper in the corners, whatever the other sides are.", "quantifier": "every grid size, every combination of boundary types, every medium, wave field, taper and number of steps, every point of the tapered zones", "why_tests_cant": "All sizes, all 256 combinations of sides and all inputs; a wrong taper index in one corner only shows as a weak reflection.", "anchors": ["fdelmodc/boundaries.c: boundariesP", "fdelmodc/elastic4.c: elastic4"]}
{"id": "C71", "title": "Absorbing layers apply the convolutional PML recursion", "statement": "In an elastic run with PML sides, at every point of the layers the memory variables are advanced by psi' = b psi + c d, starting from zero, and the velocities and stresses by the stretched differences d/kappa + psi' in the directions in which the point is in a layer and by plain differences d in the others; the stresses use the velocities after their update.", "quantifier": "every grid size, every combination of boundary types, every medium, wave field, set of PML coefficients and number of steps, every point of the layers that no ghost copy, wall or free surface overwrites", "why_tests_cant": "All sizes, combinations and inputs, and any number of steps of a recursion with memory.", "anchors": ["fdelmodc/boundaries.c: boundariesP, boundariesV", "fdelmodc/elastic4.c: elastic4"]}
{"id": "C72", "title": "Rigid walls mirror the normal velocity", "statement": "After every time step of an elastic run the velocity normal to a rigid side is antisymmetric about that side of the model, in the two rows the stencil uses and along the whole side.", "quantifier": "every grid size, every combination of boundary types, every medium, wave field and number of steps, every point along the side", "why_tests_cant": "All sizes, combinations of sides and inputs; the failing combinations need a side with taper or PML opposite or next to the wall.", "anchors": ["fdelmodc/boundaries.c: boundariesP", "fdelmodc/getParameters.c: getParameters"]}
{"id": "C73", "title": "Superposition of sources", "statement": "The wave field of an acoustic shot depends linearly on the source signatures and the initial field: the field of weighted signatures is the weighted sum of the fields, the field of N sources is the sum of the N fields with one of them active, and a source that is one of several generates the field it generates alone.", "quantifier": "every grid, combination of boundaries, medium, source type, number and placement of sources, signatures, and number of time steps", "why_tests_cant": "All media, sources, signatures and step counts; the order in which sources, surfaces and absorbing layers act matters.", "anchors": ["fdelmodc/acoustic4.c: acoustic4", "fdelmodc/applySource.c: applySource", "fdelmodc/sourceOnSurface.c: storeSourceOnSurface, reStoreSourceOnSurface"]}
{"id": "C74", "title": "Delay and causality of a shot", "statement": "Delaying all source signatures by d time steps delays the acoustic wave field by d steps, with nothing before; the field at a step depends only on the amplitudes of earlier steps.", "quantifier": "every grid, combination of boundaries, medium, source type and placement, signatures, delays and step counts", "why_tests_cant": "All delays and histories; the memory variables of absorbing layers are cleared in the first step only and values saved at the surface survive between steps.", "anchors": ["fdelmodc/acoustic4.c: acoustic4", "fdelmodc/boundaries.c: boundariesP, boundariesV", "fdelmodc/sourceOnSurface.c: storeSourceOnSurface"]}
{"id": "C75", "title": "A source acts at its place with its strength", "statement": "In every time step of an acoustic shot the fields at every point of the model are those of the difference scheme plus, at the elements given by the source type and orientation, the amplitude of the source times its documented weight; on a free surface a source still acts, and the pressure is zero at all other points of the surface.", "quantifier": "every grid, combination of boundaries, medium, source type, orientation, number and placement of sources, signature and step, every point of the model", "why_tests_cant": "All source positions including those on and next to each surface, overlapping sources, all media and steps.", "anchors": ["fdelmodc/acoustic4.c: acoustic4", "fdelmodc/applySource.c: applySource", "fdelmodc/sourceOnSurface.c: storeSourceOnSurface, reStoreSourceOnSurface"]}
{"id": "C76", "title": "Sources access only their arrays", "statement": "Injecting, saving and restoring sources never reads or writes outside the wave field and source arrays.", "quantifier": "every grid, combination of boundaries, source type, orientation, number and placement of sources the parameter checks accept", "why_tests_cant": "All positions and numbers of sources; the bad ones need a plane wave or source array extending past an edge next to a free surface.", "anchors": ["fdelmodc/applySource.c: applySource", "fdelmodc/sourceOnSurface.c: storeSourceOnSurface, reStoreSourceOnSurface", "fdelmodc/getParameters.c: getParameters"]}
{"id": "C77", "title": "The prime-factor transform is the discrete Fourier transform", "statement": "A complex transform of a length that is a product of mutually prime factors from 2,3,4,5,7,8,9,11,13,16 replaces the data by its discrete Fourier transform, with the sign of the exponent that was asked for; several transforms in one array are each transformed, whatever the strides that keep them apart, and nothing else in the array is read into them or changed.", "quantifier": "every valid length, sign, number of transforms, pair of strides that keeps the transforms apart, array size and content", "why_tests_cant": "240 lengths, all contents, all strides; ten hand-unrolled butterflies with a rotation each.", "anchors": ["FFTlib/pfafft.c: pfacc, pfamcc, pfa2cc"]}
{"id": "C78", "title": "Real prime-factor transforms: spectrum, inverse and round trip", "statement": "The real-to-complex transform of a trace of twice a valid length delivers the first half plus one values of its discrete Fourier transform; the complex-to-real transform of the half spectrum delivers the discrete Fourier transform of the whole Hermitian spectrum; forward and inverse with the opposite sign give the trace times its length.", "quantifier": "every length twice a valid length, sign, trace or Hermitian spectrum, old content of the result", "why_tests_cant": "All lengths and contents; the twiddle recurrence and the pairwise loop have different ends for even and odd half lengths.", "anchors": ["FFTlib/pfafft.c: pfarc, pfacr"]}
{"id": "C79", "title": "The complex transform of the library is right for every length and every history", "statement": "The complex transform of one trace, or of several traces with any leading dimension not less than the length, replaces each trace by its discrete Fourier transform with the sign asked for, whichever algorithm the library picks for the length and whatever transforms the thread made before; there and back gives the data times the length; nothing outside the traces is changed.", "quantifier": "every length, number of traces, leading dimension, sign, data and sequence of earlier calls of one thread", "why_tests_cant": "All lengths (three algorithms), all leading dimensions, all earlier calls that leave plans and tables behind.", "anchors": ["FFTlib/lib_fft.c: cc1_fft, ccm_fft", "FFTlib/pfafft.c: pfacc, pfamcc", "FFTlib/kiss_fft.c: kiss_fft"]}
{"id": "C80", "title": "The real transforms of the library are right for every length and every history", "statement": "The real-to-complex transform delivers the first half of the discrete Fourier transform of the trace; the complex-to-real transform delivers the discrete Fourier transform of the Hermitian spectrum whose first half it gets; there and back gives the trace times its length. This holds whatever transforms were made before.", "quantifier": "every length, sign, trace or Hermitian spectrum, old content of the result, sequence of earlier calls of one thread", "why_tests_cant": "All lengths (three algorithms), all contents, all earlier calls that leave tables behind.", "anchors": ["FFTlib/lib_fft.c: rc1_fft, cr1_fft, rcdft, crdft", "FFTlib/pfafft.c: pfarc, pfacr", "FFTlib/fft_mayer.c: realfft, realifft"]}
{"id": "C81", "title": "Several real traces are transformed each at its own place", "statement": "The real transforms of several traces treat each trace like the transform of one trace, with trace i of the reals at i times the real leading dimension and its half spectrum at i times the complex leading dimension, and change nothing else.", "quantifier": "every length, number of traces, pair of leading dimensions, sign, data and sequence of earlier calls of one thread", "why_tests_cant": "All leading dimensions and numbers of traces; the wrong result needs a number of traces equal to the complex leading dimension.", "anchors": ["FFTlib/lib_fft.c: rcm_fft, crm_fft", "FFTlib/pfafft.c: pfa2rc, pfa2cr"]}
{"id": "C82", "title": "A trace padded to the optimal length survives the transforms", "statement": "For a trace of n samples padded with zeros to the length the library recommends, forward and inverse transform give every sample times the length and zeros behind them.", "quantifier": "every number of samples from 3 to 16384, trace, sign and sequence of earlier calls", "why_tests_cant": "All trace lengths: the recommended length must be long enough and be one for which the inverse works, which even lengths without a fast algorithm are not.", "anchors": ["FFTlib/optnumber.c: optncr", "FFTlib/lib_fft.c: rc1_fft, cr1_fft"]}
{"id": "C83", "title": "Panels to the frequency domain and back", "statement": "Transforming a panel of traces to the frequency domain puts the spectrum of trace i at frequency j at place (j, i) of the result; transforming such spectra back gives the panel itself, including the scaling; a forward and an inverse transform with different leading dimensions and any transforms in between reproduce every sample.", "quantifier": "every number of samples with a working inverse, number of traces, leading dimensions, panel, old contents, earlier and intermediate calls", "why_tests_cant": "All sizes and leading dimensions, all contents, all call histories.", "anchors": ["FFTlib/xt2wx.c: xt2wx", "FFTlib/wx2xt.c: wx2xt"]}
{"id": "C84", "title": "Panels to the wavenumber domain and back", "statement": "Transforming a panel to frequency and wavenumber gives the double sum over samples and traces with the trace number counted from the origin the caller names; transforming back with the same origin gives the panel itself.", "quantifier": "every number of samples with a working inverse, number of traces, origin, leading dimensions, panel, earlier and intermediate calls", "why_tests_cant": "All origins: traces before and after it are moved by different loops; all sizes and histories.", "anchors": ["FFTlib/xt2wkx.c: xt2wkx", "FFTlib/wkx2xt.c: wkx2xt"]}
{"id": "C85", "title": "Two-dimensional transforms", "statement": "The two-dimensional complex transform of a panel is the double sum with the sign asked for in both directions, also for a single row; there and back gives the panel times the number of its samples; the real versions do the same with half of the spectrum; nothing beyond the panel changes.", "quantifier": "every size, leading dimension, sign, panel and history", "why_tests_cant": "All sizes (three algorithms per direction) and leading dimensions.", "anchors": ["FFTlib/cc2dfft.c: cc2dfft", "FFTlib/rc2dfft.c: rc2dfft", "FFTlib/cr2dfft.c: cr2dfft"]}
{"id": "C86", "title": "Volumes to the wavenumber domain and back", "statement": "Transforming a volume to frequency and two wavenumbers gives the triple sum with the places counted from the origin the caller names, each value at its place [frequency][ky][kx]; transforming back with the same origins gives the volume itself, whatever the padding of the leading dimensions.", "quantifier": "every number of samples with a working inverse, numbers of traces in both directions, origins, leading dimensions, volume, earlier and intermediate calls", "why_tests_cant": "All sizes, origins and paddings; the data are transposed three times between buffers.", "anchors": ["FFTlib/yxt2wkykx.c: yxt2wkykx", "FFTlib/wkykx2yxt.c: wkykx2yxt"]}
{"id": "C87", "title": "Convolution of gathers", "statement": "Convolving two gathers in fconv gives, trace by trace, dt times the convolution of the two traces as long as the non-zero parts of the two traces together are at most one sample longer than the padded transform length; otherwise the part of the convolution behind the padded length is added to the beginning. With the shift option time zero is moved to the middle of the trace. Nothing outside the traces is written.", "quantifier": "every number of traces, every trace length from 3 to 16384, all samples, contents of uninitialised memory, earlier and later calls of the Fourier library", "why_tests_cant": "All lengths (three transform algorithms), all data; the wrap-around depends on the length and on how the data are placed.", "anchors": ["utils/fconv.c: convol, pad_data, scl_data"]}
{"id": "C88", "title": "Correlation and power of gathers", "statement": "Correlating two gathers in fconv gives dt times the correlation at every lag that fits, positive lags from the beginning of the trace and negative lags from its end; the power option gives the part of the correlation that is symmetric in time; cor3 gives the symmetric part of the correlation of the two gathers.", "quantifier": "every number of traces, every trace length from 3 to 16384, all samples, histories of the Fourier library", "why_tests_cant": "All lengths and data; which lags overlap depends on the padded length.", "anchors": ["utils/fconv.c: corr, corr3, power"]}
{"id": "C89", "title": "Deconvolution of gathers", "statement": "Deconvolving one gather by another divides the spectra, stabilised with eps plus reps times the largest power over all traces; without stabilisation, convolving the result with the second gather gives the first gather times dt squared when the transform is not padded; the result is defined for every input.", "quantifier": "every number of traces, trace length from 3 to 16384, samples and stabilisation", "why_tests_cant": "All data: whether a spectrum has a zero, and where its maximum is, depends on all samples.", "anchors": ["utils/fconv.c: deconv"]}
{"id": "C90", "title": "Coherence of gathers", "statement": "The coherence option divides the cross spectrum of each pair of traces by the product of the amplitudes, stabilised only below epsmax times its maximum in that trace, so that no frequency exceeds amplitude one; the result depends on the data and options only.", "quantifier": "every number of traces, trace length from 3 to 16384, samples, non-negative epsmax, eps and reps", "why_tests_cant": "All data: the branch taken at each frequency depends on all frequencies of the trace.", "anchors": ["utils/fconv.c: cohr"]}
{"id": "C91", "title": "Pairing of gathers in fconv", "statement": "fconv combines every gather of the first file with the gather of the same number of the second file, or with its last gather when the second file has fewer; a gather with fewer traces is continued with its last trace and a shorter trace with zeroes; one gather is written per gather of the first file, with the number of samples asked for with ntfft (by default that of the longer traces); with the convolution the Laplace factor alpha changes nothing but the wrap-around, which it multiplies by exp(alpha*N*dt).", "quantifier": "every number of gathers in both files, every number of traces and samples per gather, all samples, alpha and dt, histories of the Fourier library", "why_tests_cant": "Any number of gathers: buffers and trace counts are carried over from gather to gather.", "anchors": ["utils/fconv.c: main"]}
{"id": "C92", "title": "Autocorrelation in fconv", "statement": "With auto=1 fconv combines every gather with itself and writes one gather of the same number of traces per gather.", "quantifier": "every number of gathers, traces and samples", "why_tests_cant": "Buffers made for the first gather are used for all later ones, of any size.", "anchors": ["utils/fconv.c: main"]}
{"id": "C93", "title": "Medium parameters of the acoustic schemes", "statement": "From velocity cp and density ro the acoustic schemes compute, at every grid point of the staggered grids, the bulk modulus cp^2*ro of that point and the reciprocal of the average of the densities on both sides for the particle velocities (times dt/dx); in absorbing borders and above a moving surface every point has the value of the nearest model point, and with cp = 0 points (air) the particle velocities next to them are switched off.", "quantifier": "every model size, order, border width, combination of boundary types and all positive densities", "why_tests_cant": "The arrays are filled and extended by a dozen loops with offsets that depend on the kinds of all four sides.", "anchors": ["fdelmodc/readModel.c: readModel", "fdelmodc/getParameters.c: getParameters"]}
{"id": "C94", "title": "Medium parameters of the elastic schemes", "statement": "The elastic schemes use lambda+2mu and lambda of the point itself, buoyancies from the average of the two neighbouring densities, and as shear modulus the harmonic mean of the moduli of the four surrounding points; in absorbing borders every point has the value of the nearest model point.", "quantifier": "every model size, order, border width, combination of boundary types and all positive densities", "why_tests_cant": "A neighbour read from the wrong column shows only in models that vary there; the loops depend on the kinds of all four sides.", "anchors": ["fdelmodc/readModel.c: readModel", "fdelmodc/getParameters.c: getParameters"]}
{"id": "C95", "title": "Homogeneous and fluid models", "statement": "A homogeneous model gives the same medium parameters at every grid point, borders included, for every combination of boundary types; where one of the four points around a shear stress point is a fluid (cs = 0) the shear modulus is zero.", "quantifier": "every model size, order, border width and combination of boundary types", "why_tests_cant": "Any number of points in and outside the model.", "anchors": ["fdelmodc/readModel.c: readModel"]}
{"id": "C96", "title": "Quality factors are reached", "statement": "The relaxation times computed from Qp, Qs and the reference frequency are those of a standard linear solid that has quality factor Qp for compression and Qs for shear at that frequency, and that only dissipates.", "quantifier": "all positive Qp, Qs, frequencies and moduli", "why_tests_cant": "A formula over real numbers: for all values.", "anchors": ["fdelmodc/readModel.c: readModel"]}
{"id": "C97", "title": "Stress relaxation of the visco-acoustic and visco-elastic schemes", "statement": "Under a constant strain rate the stresses of the visco schemes are, after any number of time steps, those of the standard linear solid with the moduli and relaxation times of the model; without attenuation they are those of the acoustic or elastic scheme. Giving several reference frequencies does not change the modulus at low frequency.", "quantifier": "every number of steps, strain rates, moduli, relaxation times, time step, number of reference frequencies", "why_tests_cant": "Every number of time steps and mechanisms.", "anchors": ["fdelmodc/viscoacoustic4.c: viscoacoustic4", "fdelmodc/viscoelastic4.c: viscoelastic4"]}
{"id": "C98", "title": "Storage of the relaxation times and help variables", "statement": "The relaxation times of every point and mechanism are stored in their own element inside the arrays, the visco-elastic update uses only values that were set before, and it updates the shear stress at all points of its grid.", "quantifier": "every model size, border and number of reference frequencies", "why_tests_cant": "Depends on the sizes for every model; undefined values look plausible.", "anchors": ["fdelmodc/readModel.c: readModel", "fdelmodc/fdelmodc.c: main", "fdelmodc/viscoelastic4.c: viscoelastic4"]}
{"id": "C99", "title": "Dispersion and stability check", "statement": "The minimum and maximum velocities the program works with are those of the model files (zeroes, which mean air or fluid, not counted in the minimum), and a run is only started if at every point the Courant number cp*dt/dx is at most the limit of the chosen order and the shortest wavelength, P or S, spans at least the required number of grid points.", "quantifier": "every model file, order, scheme, sampling and maximum frequency", "why_tests_cant": "Every model size and content; a single slow point decides.", "anchors": ["fdelmodc/getModelInfo.c: getModelInfo", "fdelmodc/getParameters.c: getParameters"]}
{"id": "C100", "title": "Accepted acoustic runs stay bounded", "statement": "A run that passes the stability check never blows up: once the sources are silent the amplitudes stay below a constant for any number of time steps, in every velocity and density model.", "quantifier": "every accepted run (order, model, sampling), every initial field, any number of time steps", "why_tests_cant": "Instability may need many steps, large grids or a particular field; no test covers an unbounded number of steps.", "anchors": ["fdelmodc/acoustic2.c: acoustic2", "fdelmodc/acoustic4.c: acoustic4", "fdelmodc/acoustic6.c: acoustic6", "fdelmodc/acoustic16.c: acoustic16", "fdelmodc/getParameters.c: getParameters"]}
{"id": "C101", "title": "The second-order acoustic scheme updates the whole grid", "statement": "With iorder=2 every time step updates the vertical particle velocity in every column of the model and nothing outside the arrays.", "quantifier": "every model size, all fields", "why_tests_cant": "Depends on the ratio of the sides; a square test model shows almost nothing.", "anchors": ["fdelmodc/acoustic2.c: acoustic2"]}
{"id": "C102", "title": "Model files become the model", "statement": "The grid has one column per trace of the velocity file, column i of velocity, density and S velocity is trace i of its file (further traces are ignored), a zero density stops the program, and no value that was never set is used.", "quantifier": "every number of traces and samples, all values", "why_tests_cant": "Files of any length; values never set look plausible.", "anchors": ["fdelmodc/readModel.c: readModel", "fdelmodc/getModelInfo.c: getModelInfo"]}
{"id": "C103", "title": "Hermitian Toeplitz systems are solved", "statement": "Whenever the solver returns, the result satisfies the Hermitian Toeplitz system given by its coefficients and right-hand side; it always returns for a definite matrix, and then the result is the only solution; a zero first coefficient stops the program.", "quantifier": "every order from 2, all coefficients and right-hand sides, whatever the memory contained before", "why_tests_cant": "All orders and all coefficients; the recursion is only right by induction on the order.", "anchors": ["extrap/lib/toeplitz.c: ztoeplitz, ctoeplitz, stoeplitz"]}
{"id": "C104", "title": "Short extrapolation operators are optimal", "statement": "The convolution operator of the length asked for has the smallest weighted squared distance to the wanted wavenumber spectrum, and it is the only such operator; with a weight of practically one it is the truncated inverse transform, which is optimal for equal weights.", "quantifier": "every spectrum, operator length, number of wavenumbers, band and weight, every history of transforms", "why_tests_cant": "Optimality is a statement about all other operators.", "anchors": ["extrap/lib/shortoper.c: shortoper", "extrap/lib/trunc1D.c: trunc1D"]}
{"id": "C105", "title": "Weights follow the band", "statement": "Every weight is set; wavenumbers outside the wanted band have the small weight, those inside by at least one sample the weight one, at the positions where the transform expects them.", "quantifier": "every number of wavenumbers, sampling, wavenumber and pair of angles", "why_tests_cant": "All numbers of samples; values never set look plausible.", "anchors": ["extrap/lib/weightfunct.c: weightfunct", "extrap/lib/kxwfilter.c: wrap"]}
{"id": "C106", "title": "Phase-shift extrapolation is bounded", "statement": "Extrapolating data by phase shifts never amplifies: the squared modulus of whatever is recorded, at any receiver and any depth, is at most the energy of the data up to its frequency. The edge taper has values in (0,1].", "quantifier": "all data, models with positive velocities, numbers of layers, receivers, frequencies, paddings and tapers in [0,1]", "why_tests_cant": "The number of depth steps is unbounded; growth shows only after many.", "anchors": ["extrap/lib/kwExtr.c: kwExtr"]}
{"id": "C107", "title": "Phase-shift extrapolation gives the wave field of each depth", "statement": "A receiver at depth d gets the data of its own frequency with every wavenumber multiplied by the phase factors of the layers above: exp(i kz dz) for propagating waves; the depth zero gives the data.", "quantifier": "all data, models, receivers, frequencies", "why_tests_cant": "Holds for all wavenumbers, depths and data; what is left over from an earlier frequency shows in a comparison of whole runs only.", "anchors": ["extrap/lib/kwExtr.c: kwExtr"]}
{"id": "C108", "title": "The exact extrapolation operator", "statement": "The operator for one depth step has, for every wavenumber of the grid, the value exp(-i kz dz) for propagating waves and exp(-|kz| dz) for evanescent ones. It never amplifies and every element is set.", "quantifier": "all numbers of wavenumbers, wavenumbers k, spacings dx and steps dz >= 0", "why_tests_cant": "A sign or index error concerns one element among any number, at the Nyquist wavenumber in particular.", "anchors": ["extrap/lib/forwExtr.c: forwExtr"]}
{"id": "C109", "title": "The cubic between two points has the wanted values and slopes", "statement": "The cubic computed from values and slopes at two different points is the only one that has them.", "quantifier": "all different points, values and slopes", "why_tests_cant": "The coefficients are rational functions of six real variables.", "anchors": ["extrap/lib/spline3.c: spline3"]}
{"id": "C110", "title": "The smoothed extrapolation operator", "statement": "The smoothed operator has modulus at most one everywhere, equals the exact phase shift within the band that is asked for, goes to zero outside of it, and is symmetric for a symmetric band.", "quantifier": "all even numbers of wavenumbers of at least 20, all k, dx > 0, dz and bands within the propagating waves", "why_tests_cant": "Amplification at a single wavenumber grows exponentially with the number of depth steps; the transition zone depends on all parameters.", "anchors": ["extrap/lib/forwExtr.c: forwExtr_smooth", "extrap/lib/spline3.c: spline3"]}
{"id": "C111", "title": "Travel times are set everywhere and bounded", "statement": "The finite-difference travel-time solver reads and writes only inside its arrays, never computes with a time that was not set, ends, and gives every grid point a time: zero at the source, elsewhere at least one step at the highest velocity and at most sqrt(2) steps at the lowest velocity for every step of distance. Near the source the time is that of the straight ray.", "quantifier": "all grids of at least 2x2 points, all positive slowness models, all sources and receivers on the grid and all source boxes of at least one point", "why_tests_cant": "The order in which points are set depends on comparisons of times computed before; a point that is skipped shows only for particular models.", "anchors": ["raytime/vidale.c: vidale, near_source, side, corner"]}
{"id": "C112", "title": "Travel times scale with spacing and slowness", "statement": "Multiplying the grid spacing by a and the slowness by b multiplies every travel time by a*b.", "quantifier": "all grids, models, sources and positive a, b", "why_tests_cant": "It must hold through every comparison and fallback of the solver.", "anchors": ["raytime/vidale.c: vidale, near_source, side, corner, rm_head"]}
{"id": "C113", "title": "Removal of head waves changes one layer only", "statement": "Before the times are computed, the first layer that differs from the layer next to the source is replaced by the slowness next to the source, in an unbroken run of rows; all other slownesses stay and no new slowness value appears.", "quantifier": "all models, sources and receivers on the grid", "why_tests_cant": "Which rows are touched depends on the whole model.", "anchors": ["raytime/vidale.c: rm_head"]}
{"id": "C114", "title": "Amplitude from the mean velocity", "statement": "The amplitude of a receiver is the square root of the travel time multiplied by the mean velocity along the line from source to receiver; the mean lies between the smallest and the largest velocity and all its points are on the grid.", "quantifier": "all models, sources and receivers on the grid", "why_tests_cant": "Rounding of the line points and the number of terms depend on both positions.", "anchors": ["raytime/raytime.c: main"]}
{"id": "C115", "title": "As many receivers as counted", "statement": "The number of receivers fdelmodc reports and sizes its receiver arrays with equals the number of receiver positions it fills in, whatever combination of circle, text file, coordinate arrays and lines is given.", "quantifier": "all parameter sets that are accepted and all grids", "why_tests_cant": "The count and the positions are computed by two separate passes over the parameters that repeat the same decisions.", "anchors": ["fdelmodc/recvPar.c: recvPar"]}
{"id": "C116", "title": "Receiver lines are filled evenly and stay on the grid", "statement": "A receiver line inside the model, with a spacing that fits a whole number of times, has receivers at equal distances from its first to its last point, all on the grid; without receiver parameters there is one receiver on every column of the top row.", "quantifier": "all grids with positive spacing and all lists of lines", "why_tests_cant": "It ranges over all line geometries, spacings and combinations of per-line and shared values.", "anchors": ["fdelmodc/recvPar.c: recvPar"]}
{"id": "C117", "title": "Receivers sit on the nearest grid point", "statement": "Receivers of lines, coordinate arrays and text files are at the grid point within half a cell of the position that is written to the headers; receivers of a circle are always on the grid.", "quantifier": "all accepted parameter sets and grids with positive spacing", "why_tests_cant": "Rounding must be right for every position, on both sides of the middle of a cell.", "anchors": ["fdelmodc/recvPar.c: recvPar"]}
{"id": "C118", "title": "Snapshots are written at the asked times, once each", "statement": "For snapshot times tsnap1, tsnap1+dtsnap, ..., every snapshot whose time is reached in the run is written exactly once per shot, in order, numbered from one, at a time step that follows from the rounded first time and interval; the file holds the snapshots of this run only.", "quantifier": "all first times, last times and intervals, all time steps and all lengths of the run", "why_tests_cant": "The times depend on rounding of three quotients and a range check at every time step of every run.", "anchors": ["fdelmodc/getParameters.c: getParameters", "fdelmodc/writeSnapTimes.c: writeSnapTimes"]}
{"id": "C119", "title": "A snapshot sample holds the field at its stated position", "statement": "A trace of a snapshot holds, for every wanted row, the value of the field at the horizontal position in its header; the range written is the asked one, clipped to the model.", "quantifier": "all models, boundary types, ranges, decimations, field components and wave fields", "why_tests_cant": "A shift by one grid point is invisible in a plotted snapshot; it must be right for every combination of borders and components.", "anchors": ["fdelmodc/writeSnapTimes.c: writeSnapTimes", "fdelmodc/getParameters.c: getParameters"]}
{"id": "C120", "title": "Beams sum the absolute field at their points", "statement": "The beam at a point is the sum over all time steps of the absolute value of the field component at that point, and the header of a beam trace states the position of its points.", "quantifier": "all models, boundary types, ranges, decimations, components and sequences of wave fields", "why_tests_cant": "The sum runs over all time steps; the error depends on the type of the borders.", "anchors": ["fdelmodc/getBeamTimes.c: getBeamTimes, writeBeams"]}
{"id": "C121", "title": "Common receiver gathers are complete", "statement": "From the headers of the traces corrvir builds a table with every receiver position once and, for every receiver, every source position once with the first trace that has both; nothing is written outside the table as long as the given numbers of receivers and sources are not exceeded.", "quantifier": "all lists of trace headers and all numbers of receivers and sources", "why_tests_cant": "The table depends on the order and repetition of positions in files with many traces.", "anchors": ["corrvir/corrvir.c: main"]}
{"id": "C122", "title": "A virtual source is the receiver nearest to the asked position", "statement": "For every asked virtual source position the receiver with the smallest distance is used, and positions further away than the tolerance are not used.", "quantifier": "all tables of receivers, positions, coordinate scalers and tolerances", "why_tests_cant": "Depends on every position in the survey.", "anchors": ["corrvir/corrvir.c: main"]}
{"id": "C123", "title": "Exactly the selected common sources contribute to a virtual trace", "statement": "Each source that was recorded by both receivers and that satisfies the selection criterion contributes exactly once, and the work arrays always have room for them.", "quantifier": "all sorted tables, all pairs of receivers and all selection criteria", "why_tests_cant": "The selection depends on the geometry of every pair of receivers with every source.", "anchors": ["corrvir/corrvir.c: main"]}
{"id": "C124", "title": "A virtual trace is the stack of the cross-correlations", "statement": "The trace of a virtual source and a virtual receiver is the sum over the contributing sources of the cross-correlation of their traces, at the times chosen with causal, divided by the number of sources, without wrap-around; it is the same when source and receiver are exchanged and time is reversed; too few sources give a zero trace.", "quantifier": "all traces, lengths, frequency limits, pairs of receivers and states of the transform library", "why_tests_cant": "The result is a numerical identity for all data, not just for a few examples.", "anchors": ["corrvir/corrvir.c: main, get_sutrace_at_position", "corrvir/correlate.c: correlate, coherence"]}
{"id": "C125", "title": "The result of corrvir does not depend on the schedule of the threads", "statement": "For every schedule of the threads each thread gets the traces it asks for, and each virtual trace is written exactly once.", "quantifier": "all schedules and all sets of wanted traces", "why_tests_cant": "A race shows up in some schedules only.", "anchors": ["corrvir/corrvir.c: main, get_sutrace_at_position"]}
{"id": "C126", "title": "Every documented choice of basop selects its operation", "statement": "Every name and every number in the documentation selects the operation it stands for; any other text selects an operation only when it contains the name or number of it.", "quantifier": "all texts given as choice", "why_tests_cant": "The test is a chain of thirty comparisons, partly for substrings, over an array of fixed length.", "anchors": ["utils/basop.c: main"]}
{"id": "C127", "title": "The frequency-domain operations of basop multiply by the right factor", "statement": "Time shift, phase rotation, differentiation, integration and the other operations with time only multiply every frequency component in the band by the factor of the operation and remove the rest, for every trace alike; each operation followed by its inverse gives back the part in the band; a shift by whole samples delays the trace.", "quantifier": "all gathers, lengths, bands, parameters of the operations and states of the transform library", "why_tests_cant": "A statement about all data and all frequencies.", "anchors": ["utils/basop.c: timeShift, phaseRot, timeDiff, sqrtTimeDiff"]}
{"id": "C128", "title": "Hilbert transform and envelope", "statement": "Choice hilb gives the Hilbert transform of every trace, choice env the absolute value of its analytic signal.", "quantifier": "all gathers and lengths", "why_tests_cant": "A statement about all data.", "anchors": ["utils/basop.c: HilbertTrans, envelope"]}
{"id": "C129", "title": "Conjugation reverses time", "statement": "Choice conjg gives every trace reversed in time, with the time of the first sample in the header set accordingly.", "quantifier": "all gathers and lengths", "why_tests_cant": "A statement about all data; the position of the padding matters.", "anchors": ["utils/basop.c: conjugate"]}
{"id": "C130", "title": "Averages and rotations of basop", "statement": "Choice rma subtracts the average of the gather, rmat the average of every trace; nrot rotates every trace by the given number of samples or time; the header of a time-shifted gather has the time of its first sample.", "quantifier": "all gathers, numbers of samples, rotations and shifts", "why_tests_cant": "A statement about all data and parameters.", "anchors": ["utils/basop.c: main, time_rotate"]}
{"id": "C131", "title": "Padding in two directions keeps every sample in its trace", "statement": "For the operations in the wavenumber domain every trace is placed at the start of a padded trace, and everything else is zero.", "quantifier": "all gathers and padded sizes", "why_tests_cant": "Whether a number of samples is padded depends on its factors.", "anchors": ["utils/basop.c: pad2d_data"]}
{"id": "C132", "title": "Exactly the named traces are killed", "statement": "Choices killno and killfo set to zero exactly the traces nearer to (further from) the shot than the given number, choice kill exactly the traces or gathers listed in the file.", "quantifier": "all gathers, shot numbers, files and traces", "why_tests_cant": "Depends on the text of the file and on every trace position.", "anchors": ["utils/basop.c: main, kill_traces"]}
{"id": "C133", "title": "Reading a gather delivers exactly the traces of the gather", "statement": "A call that reads the next gather of a file delivers all traces up to the next change of source position or field record, headers and samples unchanged, and the next call starts with the following gather; a file that ends within a trace is reported.", "quantifier": "all files of traces, gathers and sizes of the arrays", "why_tests_cant": "Depends on every header of the file and on where it is cut.", "anchors": ["utils/readData.c: readData", "utils/writeData.c: writeData"]}
{"id": "C134", "title": "A filter program writes the result of every gather", "statement": "A program that reads gathers, changes them and writes them gives, for every gather of the file, the changed gather, in their order and with nothing else in between.", "quantifier": "all files, numbers and sizes of gathers, operations on gathers, given and default sizes, files and pipes", "why_tests_cant": "Depends on the sizes of all gathers of the file.", "anchors": ["utils/basop.c: main", "utils/smooth.c: main", "utils/getFileInfo.c: getFileInfo"]}
{"id": "C135", "title": "Smoothing replaces every sample by the average around it", "statement": "Every sample is replaced, niter times, by the average of the samples in a window centred at it and cut off at the edges of the gather; so no value leaves the range of the data and constants stay the same; a power and its inverse around the averages give a power mean.", "quantifier": "all gathers, windows, numbers of iterations and powers", "why_tests_cant": "A statement about all data and windows.", "anchors": ["utils/smooth.c: rSmooth, main"]}
{"id": "C136", "title": "The receiver files of a run hold the records of all shots", "statement": "After a run there is one file for every recorded component with, in the order of the shots, a trace for every receiver; the trace has the wavefield of that shot at the receiver at the recording times, the trace numbers count on over the shots, and the header has the positions of source and receiver; what was in the files before is gone and no other file is touched.", "quantifier": "all sets of components, numbers and positions of shots and receivers, wavefields, recording steps, delays and contents of the directory", "why_tests_cant": "Depends on the whole history of the run and on the files that existed before.", "anchors": ["fdelmodc/fdelmodc.c: main", "fdelmodc/writeRec.c: writeRec", "utils/name_ext.c: name_ext"]}
{"id": "C137", "title": "The source plays the wavelet of the file", "statement": "The source signature that is injected is the band-limited function through the samples of the wavelet file (its integral over time for sources that are not injection rates), delayed by half a step in time and space for the sources that are staggered, reversed when asked for, and shifted by a constant so that the last sample is zero.", "quantifier": "all wavelets, lengths, sampling steps, interpolation factors, types of source", "why_tests_cant": "A statement about all wavelets and lengths; errors appear only for some lengths.", "anchors": ["fdelmodc/defineSource.c: defineSource", "fdelmodc/getParameters.c: getParameters"]}
{"id": "C138", "title": "The wavelet keeps its time scale and its small samples", "statement": "A wavelet that is sampled differently than the modelling is resampled to the time step of the modelling, so that it lasts as long as in the file; samples are set to zero only if they are small in comparison with the wavelet.", "quantifier": "all sampling steps, numbers of wavelets and amplitudes", "why_tests_cant": "Depends on the ratio of the steps and on all wavelets of the file.", "anchors": ["fdelmodc/getParameters.c: getParameters", "fdelmodc/defineSource.c: defineSource"]}
{"id": "C139", "title": "Padding a model keeps the model", "statement": "A padded model holds the samples of the model at the positions they had, and around them the nearest sample of the model or the value asked for.", "quantifier": "all sizes, paddings in the three directions and contents", "why_tests_cant": "A statement about every position and every size of padding; errors only show where all three paddings meet.", "anchors": ["utils/padmodel.c: main"]}
{"id": "C140", "title": "Truncating a model", "statement": "Below the sample nearest to the depth asked for, every trace of a truncated model repeats that sample; above it nothing changes. Depths outside the model are refused, those inside accepted.", "quantifier": "all sizes, depths, origins and contents", "why_tests_cant": "The limits of the check are wrong for single depths only.", "anchors": ["utils/truncate.c: main"]}
{"id": "C141", "title": "The peak of a wavelet", "statement": "The wavelet that makewave writes has its largest sample at the time t0 asked for, that sample has the value scale, and the wavelet is symmetric around it; without scaling it is the inverse transform of its spectrum.", "quantifier": "all kinds, lengths, sampling steps, frequencies and times of the peak", "why_tests_cant": "A statement about all samples of all wavelets; errors appear for some lengths and positions.", "anchors": ["utils/freqwave.c: freqwave", "utils/makewave.c: main"]}
{"id": "C142", "title": "The spectrum of a wavelet", "statement": "The largest amplitude of a wavelet is at the peak frequency; when the wavelet is given by its maximum frequency, its amplitude there is db below the largest one, and the peak frequency is the highest for which this is so. The inverse wavelet times the wavelet has a real spectrum between 0 and 1.", "quantifier": "all peak and maximum frequencies, attenuations and lengths", "why_tests_cant": "A statement about all frequencies.", "anchors": ["utils/freqwave.c: freqwave, gauss0freq, gauss1freq, gauss2freq"]}
{"id": "C143", "title": "Frequencies that do not fit are refused", "statement": "A wavelet whose frequencies are outside the band from zero to the Nyquist frequency is refused with a message; other settings never make the program write outside its arrays.", "quantifier": "all kinds, lengths, sampling steps and frequencies", "why_tests_cant": "Memory errors for single values of the parameters need not show in the result.", "anchors": ["utils/freqwave.c: freqwave"]}
{"id": "C144", "title": "Primaries sample by sample", "statement": "Each sample of the primaries that marchenko_primaries writes, from istart up to iend, is that of the solution for this sample: niter/2 applications, starting from the data, of data minus twice-through-the-medium with the time windows of the sample; with reuse of the previous sample (niterskip), niterec/2 applications of the same map to the previous solution. Samples outside the range are zero.", "quantifier": "all data, linear operators, windows, numbers of iterations, ranges and skips", "why_tests_cant": "The recursion runs over all samples; a test compares one data set.", "anchors": ["marchenko/marchenko_primaries.c: main"]}
{"id": "C145", "title": "Removed multiples complement the primaries", "statement": "The file of removed multiples and the file of primaries add to the input data at every sample of the range, and are zero outside.", "quantifier": "all data, operators, windows and numbers of iterations", "why_tests_cant": "A statement about all samples and settings.", "anchors": ["marchenko/marchenko_primaries.c: main"]}
{"id": "C146", "title": "Split of the focusing function in u and v", "statement": "For each time sample the files of u- and v- add to k1-, v- holds what is before the sample and u- what is after, with complementary tapers in between.", "quantifier": "all samples, shifts, smoothing lengths and traces", "why_tests_cant": "A statement about all settings; memory errors appear for samples before shift only.", "anchors": ["marchenko/marchenko_primaries.c: main"]}
{"id": "C147", "title": "Picked arrivals of focusing operators", "statement": "The time picked for the trace at the source is its first largest sample; every other trace gets the first largest sample within hw samples of the pick of its neighbour on the side of the source, with times wrapping around; so neighbouring picks differ by at most hw. With itb the pick of the source trace is within hw of itb.", "quantifier": "all gathers, source positions, window widths and amplitudes", "why_tests_cant": "The picks are defined by recursion over all traces; a test sees a few gathers.", "anchors": ["marchenko/readTinvData.c: readTinvData", "marchenko/fmute.c: findMax"]}
{"id": "C148", "title": "fmute mutes every gather", "statement": "fmute writes one muted gather for each gather of file_shot, with the picks of the gather itself or of the corresponding gather of file_mute.", "quantifier": "all files with any number and size of gathers", "why_tests_cant": "The number and the sizes of gathers are not bounded.", "anchors": ["marchenko/fmute.c: main"]}
{"id": "C149", "title": "Correlation by mdd", "statement": "mdd=0 writes, for every frequency, the product of the two data matrices in the forms selected by conjgA and conjgB, each frequency in its own place, without leaving its arrays.", "quantifier": "all data, numbers of frequencies, shots and traces, and options", "why_tests_cant": "Matrices of every size and content; the layout errors show up only for particular combinations of sizes.", "anchors": ["MDD/deconvolve.c: deconvolve", "MDD/mdd.c: main", "MDD/readShotData.c: readShotData"]}
{"id": "C150", "title": "Deconvolution by mdd solves the damped equations", "statement": "mdd=1 writes the matrix C with C(BB^H+eps)=AB^H and mdd=2 the matrix with C(B+eps)=A, for every frequency.", "quantifier": "all data, sizes and options, and every inversion routine that meets its contract", "why_tests_cant": "Equality for all matrices and frequencies.", "anchors": ["MDD/deconvolve.c: deconvolve"]}
{"id": "C151", "title": "Transmission series", "statement": "mdd=6 sums the k_iter terms of the alternating series for the transmission response.", "quantifier": "all data and numbers of terms", "why_tests_cant": "The sign of a term depends on its number; a test with one k_iter cannot settle it.", "anchors": ["MDD/deconvolve.c: deconvolve"]}
{"id": "C152", "title": "LSQR operators", "statement": "The two operators given to LSQR (mdd=3) add A x to y and A^H y to x, as the solver requires, and are adjoint.", "quantifier": "all data and vectors", "why_tests_cant": "Contract over all vectors.", "anchors": ["MDD/deconvolve.c: Aprod1_, Aprod2_", "MDD/zlsqrModule.F90: zLSQR"]}
{"id": "C153", "title": "Damped inverse and least squares", "statement": "The inversion of rthm=0..5 returns the inverse of the matrix with eps_r*sum|m|+eps_a added to the diagonal (SVD: its pseudo-inverse with the values below numacc times the largest dropped); hence each row written by mdd=1 is the one minimiser of the damped misfit and the default method never fails on data with eps_a>0.", "quantifier": "all matrices, options and data", "why_tests_cant": "Holds for all complex matrices.", "anchors": ["MDD/computeMatrixInverse.c: computeMatrixInverse", "MDD/deconvolve.c: deconvolve"]}
{"id": "C154", "title": "Plane-wave window", "statement": "For a (dipping) plane wave the window keeps exactly the times between the negative end and the positive end of the trace's own pair of mute times, with cosine edges of the given width, on a periodic time axis, and touches no other trace.", "quantifier": "every number of traces, mute times, taper width, shift and iteration", "why_tests_cant": "Wrap-around of negative times, all pairs of mute times.", "anchors": ["marchenko/applyMute_plane.c: applyMute_plane", "marchenko/mapj.c: mapj"]}
{"id": "C155", "title": "Odd-iteration window is the time reverse of the even one", "statement": "Muting time-reversed data in an odd iteration gives the time-reversed result of muting the data in an even iteration; the time-shift variant is the plane-wave variant with second mute time mute-2*tsynW.", "quantifier": "all data, mute times, tapers, shifts and iterations", "why_tests_cant": "Equality for all inputs.", "anchors": ["marchenko/applyMute_plane.c: applyMute_plane", "marchenko/applyMute_tshift.c: applyMute_tshift"]}
{"id": "C156", "title": "Theta and Psi plane-wave windows are complementary", "statement": "The windows for the focusing functions and for the Green's functions add up to one at every sample.", "quantifier": "all data, mute times, tapers and iterations", "why_tests_cant": "Must hold at each sample of each trace.", "anchors": ["marchenko/applyMute_plane.c: applyMute_plane"]}
{"id": "C157", "title": "Conventional reverse time migration image", "statement": "With the conventional imaging condition the stacked image at an image point is the image time step times the sum over all shots and all imaged time steps of source pressure times receiver pressure at that point and that step; every read stays inside the wavefields and no snapshot is left over.", "quantifier": "every grid, absorbing edge, image window and step, every number of shots, steps and all wavefields", "why_tests_cant": "Snapshot stack used backwards in time, decimated in time and space; any shot count.", "anchors": ["fdacrtmc/fdacrtmc.c: main", "fdacrtmc/extractMigrationSnapshots.c: extractMigrationSnapshots", "fdacrtmc/rtmImagingCondition.c: rtmImagingCondition"]}
{"id": "C158", "title": "Poynting-vector imaging", "statement": "With the Poynting condition only those steps are added for which the products of source and receiver energy flux have the sign that belongs to the chosen orientation, both fluxes taken at the image point.", "quantifier": "all wavefields, windows, steps and shots", "why_tests_cant": "Sign of a product of fields at every point and step.", "anchors": ["fdacrtmc/rtmImagingCondition.c: rtmImagingCondition", "fdacrtmc/extractMigrationSnapshots.c: extractMigrationSnapshots"]}
{"id": "C159", "title": "Sampling of the image", "statement": "The image points start at the requested corner, lie a whole number of steps apart, none lies beyond the other corner or outside the model, and no further one would fit.", "quantifier": "every corner, step and model size", "why_tests_cant": "Integer division at all sizes.", "anchors": ["fdacrtmc/getParameters.c: getParameters"]}
{"id": "C160", "title": "Hilbert imaging separates up and down going waves", "statement": "For wavefields that are sums of waves along depth, up-down Hilbert imaging keeps of each product of waves only the part with the sum of the wavenumbers, and left-right imaging does the same along the lateral direction.", "quantifier": "all sums of waves, all columns, steps and shots", "why_tests_cant": "Spectral statement about all inputs.", "anchors": ["fdacrtmc/rtmImagingCondition.c: rtmImagingCondition"]}
{"id": "C161", "title": "Plane-wave imaging pairs equal times", "statement": "In plane-wave imaging the source and receiver snapshot used for a sample belong to the same time step, and the muting stays inside the arrays.", "quantifier": "every number of steps and every image time step", "why_tests_cant": "Depends on divisibility and parity of run lengths.", "anchors": ["fdacrtmc/PlaneWaveDecomposition.c: PlaneWaveDecompositionUpDownRTMImagingCondition", "fdacrtmc/extractMigrationSnapshots.c: extractMigrationSnapshots", "fdacrtmc/fdacrtmc.c: main"]}
{"id": "C162", "title": "vmar solves the Marchenko equations by the truncated series", "statement": "Each update makes the up-going focusing function the windowed multidimensional convolution of the reflection response with the down-going one, and the down-going one the initial field plus the windowed correlation with the up-going one; after any number of iterations the result is the corresponding partial sum of the Neumann series.", "quantifier": "all reflection responses, windows, initial fields, array sizes and numbers of iterations", "why_tests_cant": "Holds for any number of iterations and any data.", "anchors": ["vmar/Marchenko_Iterations.c: Marchenko_Iterations", "vmar/vmar.c: main"]}
{"id": "C163", "title": "Green's functions of vmar", "statement": "After an update the down-going Green's function is, in reversed time, the new focusing function minus the full correlation, at every sample.", "quantifier": "every state, sample, shot and station", "why_tests_cant": "Depends on the order in which a loop writes and reads the same array.", "anchors": ["vmar/Marchenko_Iterations.c: Marchenko_Iterations"]}
{"id": "C164", "title": "vmar gives the same result for any number of threads", "statement": "The result of an update does not depend on how the shots are distributed over threads.", "quantifier": "all distributions of shots over threads, all data", "why_tests_cant": "Schedules.", "anchors": ["vmar/Marchenko_Iterations.c: Marchenko_Iterations"]}
{"id": "C165", "title": "Single-shot vmar stays inside its arrays", "statement": "The products for one shot read only elements of the field at the frequency in question.", "quantifier": "all numbers of shots, stations and frequencies", "why_tests_cant": "All sizes.", "anchors": ["vmar/Marchenko_Iterations.c: Marchenko_Iterations"]}
{"id": "C166", "title": "Output positions of the 3D synthesis", "statement": "The list of output positions of marchenko3D holds every position of a focusing-operator trace within the source aperture exactly once, whatever the order of the shots.", "quantifier": "all source geometries (lines, rasters), shot orders and numbers of positions", "why_tests_cant": "Any number of shots in any order.", "anchors": ["marchenko3D/synthesis3D.c: synthesisPositions3D"]}
{"id": "C167", "title": "The 3D synthesis integral", "statement": "The field synthesised for a focal point and a shot is the sum over the receivers of the shot of the circular convolution of the reflection response with the focusing operator at the position of the receiver, weighted by the areal step, whatever the order in which threads take the shots.", "quantifier": "all reflection data, operators, numbers of shots, receivers and samples, and all schedules", "why_tests_cant": "Schedules and unbounded sizes.", "anchors": ["marchenko3D/synthesis3D.c: synthesis3D"]}
{"id": "C168", "title": "Mute windows of the 3D program", "statement": "Each mute window multiplies every listed trace with its smooth window, clears what is outside, and leaves all other traces alone.", "quantifier": "all mute times, tapers, shifts and positions that leave room for the edges, all data", "why_tests_cant": "All boundary positions.", "anchors": ["marchenko3D/applyMute3D.c: applyMute3D"]}
{"id": "C169", "title": "Image of marchenko3D", "statement": "The image at a focal point is the zero-time value of the convolution of the up-going Green's function with the down-going focusing function summed over the array, times dx*dy*dt, independent of the order of the focal points.", "quantifier": "all fields, sizes and orders of the focal points", "why_tests_cant": "All data and every order of execution.", "anchors": ["marchenko3D/imaging3D.c: imaging3D"]}
{"id": "C170", "title": "Cost of marchenko3D", "statement": "The cost is the total energy of the convolutions of all focal points, whatever the schedule of the threads.", "quantifier": "all convolutions, numbers of focal points, and all schedules", "why_tests_cant": "A race shows only on some schedules.", "anchors": ["marchenko3D/Cost3D.c: Cost3D"]}
{"id": "C171", "title": "Amplitude estimate of marchenko3D", "statement": "The amplitude of a focal point is the root of the energy of its own direct field (or the given wavelet) over what comes back through its Green's function; it does not depend on the other focal points.", "quantifier": "all fields, numbers and lists of positions", "why_tests_cant": "All histories of earlier focal points.", "anchors": ["marchenko3D/ampest3D.c: AmpEst3D"]}
{"id": "C172", "title": "Amplitudes are applied to their own focal point", "statement": "Every sample of every output of a focal point is multiplied with the amplitude of that focal point, once.", "quantifier": "all grid sizes, numbers of focal points and amplitudes", "why_tests_cant": "All sizes.", "anchors": ["marchenko3D/marchenko3D.c: main"]}
{"id": "C173", "title": "Scale factor of the reflection data", "statement": "With sclcor=1 the reflection data end up multiplied with the tested factor that has the smallest relative cost, and each factor is tested on the original data times that factor.", "quantifier": "all factor ranges, cost functions, data and parameters", "why_tests_cant": "All sequences of costs.", "anchors": ["marchenko3D/marchenko3D.c: main"]}
{"id": "C174", "title": "Accesses of the 3D acoustic step", "statement": "The loops of the acoustic time step of fdelmodc3D read and write only elements of the wave-field and medium arrays.", "quantifier": "all model sizes, boundary widths and types of the six sides (whole step: sides without taper, PML or rigid wall)", "why_tests_cant": "Every size and combination of boundaries.", "anchors": ["fdelmodc3D/acoustic4_3D.c: acoustic4_3D", "fdelmodc3D/getParameters3D.c: getParameters3D"]}
{"id": "C175", "title": "Leapfrog update in three dimensions", "statement": "A time step advances each velocity at every point of its staggered grid by the fourth-order difference of the old pressure along its own axis, then the pressure by the divergence of the new velocities; on free surfaces the pressure is zero, and everything else keeps its value.", "quantifier": "all fields, media, grid sizes and points", "why_tests_cant": "All fields and sizes.", "anchors": ["fdelmodc3D/acoustic4_3D.c: acoustic4_3D", "fdelmodc3D/boundaries3D.c: boundariesP3D, boundariesV3D"]}
{"id": "C176", "title": "The 3D step does not depend on the threads", "statement": "Every schedule of the OpenMP loops of a time step of fdelmodc3D gives the wave fields of a run with one thread.", "quantifier": "all schedules, fields, media and sizes", "why_tests_cant": "A race shows only on some schedules.", "anchors": ["fdelmodc3D/acoustic4_3D.c: acoustic4_3D", "fdelmodc3D/boundaries3D.c: boundariesP3D"]}
{"id": "C177", "title": "Superposition in three dimensions", "statement": "A time step maps a linear combination of wave fields to the same combination of the results.", "quantifier": "all fields, media, sizes and factors", "why_tests_cant": "All fields.", "anchors": ["fdelmodc3D/acoustic4_3D.c: acoustic4_3D"]}
{"id": "C178", "title": "Accesses of the 3D elastic sweeps", "statement": "The loops over the grid of the elastic time step of fdelmodc3D read and write only elements of the wave-field and medium arrays.", "quantifier": "all model sizes, boundary widths and types of the six sides", "why_tests_cant": "Every size and combination of boundaries.", "anchors": ["fdelmodc3D/elastic4_3D.c: elastic4_3D", "fdelmodc3D/getParameters3D.c: getParameters3D"]}
{"id": "C179", "title": "Newton's and Hooke's laws in three dimensions", "statement": "The velocity loops of the elastic step of fdelmodc3D advance each velocity at every point of its grid by the divergence of the old stresses, the stress loops then advance the six stresses by Hooke's law from the new velocities; nothing else changes, and the result is linear in the wave fields.", "quantifier": "all fields, media, grid sizes and points", "why_tests_cant": "All fields and sizes.", "anchors": ["fdelmodc3D/elastic4_3D.c: elastic4_3D"]}
{"id": "C180", "title": "The 3D elastic sweeps do not depend on the threads", "statement": "Every schedule of the OpenMP loops over the grid of the elastic step of fdelmodc3D gives the wave fields of a run with one thread.", "quantifier": "all schedules, fields, media and sizes", "why_tests_cant": "A race shows only on some schedules.", "anchors": ["fdelmodc3D/elastic4_3D.c: elastic4_3D"]}
{"id": "C181", "title": "Elastic modelling of a fluid is acoustic modelling", "statement": "For a medium without shear modulus and a state without shear stress, the elastic kernel of fdelmodc3D computes the velocities and (three times) the pressure that the acoustic kernel computes.", "quantifier": "all fluid media, fields, sizes; sides without PML", "why_tests_cant": "All media and fields.", "anchors": ["fdelmodc3D/elastic4_3D.c: elastic4_3D", "fdelmodc3D/acoustic4_3D.c: acoustic4_3D"]}
{"id": "C182", "title": "Windows of snapshot files", "statement": "Reading a window (x, y and depth ranges inside the volume) of a snapshot file touches no memory outside the arrays and delivers, for every snapshot, exactly the samples of the window and nothing else.", "quantifier": "all sizes, windows inside the volume and contents", "why_tests_cant": "All sizes and windows.", "anchors": ["utils/readSnapData3D.c: readSnapData3D"]}
{"id": "C183", "title": "Reshaping is an exchange of dimensions", "statement": "reshape_su writes the data with the first and the fourth dimension exchanged and touches nothing outside its arrays; applied to its own output it gives back every sample.", "quantifier": "all sizes of the four dimensions and contents", "why_tests_cant": "All sizes.", "anchors": ["utils/reshape_su.c: main"]}
{"id": "C184", "title": "Headers of reshaped data", "statement": "Reshaping twice gives back the kind of the file, its sampling in time and depth, and the coordinates of its traces; positions mean the same in input and output.", "quantifier": "all headers", "why_tests_cant": "All header values and scale factors.", "anchors": ["utils/reshape_su.c: main"]}
{"id": "C185", "title": "Snapshots to gathers", "statement": "snap2shot writes for every point of the volume a gather whose trace for a source is the time series of that point in the snapshot file of that source; nothing outside the arrays is touched.", "quantifier": "all numbers of sources, snapshots, columns, lines and depths, and all contents", "why_tests_cant": "All sizes.", "anchors": ["utils/snap2shot.c: main"]}
{"id": "C186", "title": "Names of numbered snapshot files", "statement": "The files read are the file the user named and those whose names differ from it only in the number, which increases by dnumb.", "quantifier": "all file names, first numbers and increments", "why_tests_cant": "All names and numbers.", "anchors": ["utils/snap2shot.c: main"]}
{"id": "C187", "title": "Muting of a homogeneous Green's function around time zero", "statement": "The mute multiplies the samples nearer to time zero than the first arrival by a taper and then zero, symmetrically in time, keeps all others, and accesses only the snapshots and the taper.", "quantifier": "all fields, arrivals, numbers of snapshots, shifts and taper widths that are not negative", "why_tests_cant": "All arrivals and widths.", "anchors": ["utils/mutesnap.c: main"]}
{"id": "C188", "title": "Muting of the start of snapshots", "statement": "With opt=1 the samples before the arrival minus shift are tapered and set to zero, the others kept.", "quantifier": "all fields, arrivals, shifts and taper widths", "why_tests_cant": "All arrivals and widths.", "anchors": ["utils/mutesnap.c: main"]}
{"id": "C189", "title": "First arrivals of snapshots", "statement": "The arrival by maximum is the first sample of largest absolute value in the first half of a trace; the arrival by tolerance is the first sample there above the tolerance.", "quantifier": "all traces, lengths and tolerances", "why_tests_cant": "All traces.", "anchors": ["utils/mutesnap.c: topdet", "utils/mutesnap.c: farrdet"]}
{"id": "C190", "title": "Two files of the same volume are accepted", "statement": "mutesnap accepts two files that cover the same volume and refuses files of different sizes.", "quantifier": "all sizes", "why_tests_cant": "All sizes.", "anchors": ["utils/mutesnap.c: main", "utils/getFileInfo3D.c: getFileInfo3D"]}
{"id": "C191", "title": "Accesses of the electromagnetic kernel", "statement": "The loops over the grid of the electromagnetic time step of fdemmodc read and write only elements of the fields, media and work arrays.", "quantifier": "all model sizes, boundary widths, orders, numbers of threads and assignments of rows to threads", "why_tests_cant": "Every size and order.", "anchors": ["fdemmodc/em4.c: em4", "fdemmodc/getEmParameters.c: getParameters"]}
{"id": "C192", "title": "Maxwell's equations on the grid, for every schedule", "statement": "Whatever the schedule, a step of fdemmodc advances the magnetic fields by Faraday's law from the old electric field and the electric field by Ampere's law (with loss) from the new magnetic fields, and changes nothing else.", "quantifier": "all fields, media, sizes, numbers of threads, assignments of rows to threads and interleavings", "why_tests_cant": "A wrong assignment of rows shows only on some run-time systems.", "anchors": ["fdemmodc/em4.c: em4"]}
{"id": "C193", "title": "Electromagnetic constants", "statement": "The constants used are those of the SI and waves travel with the velocity of light divided by the root of the relative permittivity.", "quantifier": "all permittivities", "why_tests_cant": "All values.", "anchors": ["fdemmodc/em4.c: em4", "fdemmodc/readEmModel.c: readEmModel", "fdemmodc/getEmParameters.c: getParameters"]}
{"id": "C194", "title": "Combining snapshot files", "statement": "combine puts the files behind each other in the chosen direction: every sample of every file is in the volume, at the position of the file and its position in the file.", "quantifier": "all numbers of files, sizes, directions, both orders of storage and all samples", "why_tests_cant": "The error shows only for files of more than one sample in the stacking direction.", "anchors": ["utils/combine.c: main"]}
{"id": "C195", "title": "Names and positions of combine", "statement": "The files read are the named one and those with the following numbers, and the position written for every trace is its position.", "quantifier": "all names, numbers, positions and spacings", "why_tests_cant": "Every name and number.", "anchors": ["utils/combine.c: main"]}
{"id": "C196", "title": "Shapes of diffractors", "statement": "A diffractor of makemod covers the grid points of a diamond, circle or square of the given width around its point.", "quantifier": "all widths and grid points", "why_tests_cant": "Every width; the small ones are lost.", "anchors": ["utils/diffraction.c: makesquare, makediamond, makecircle", "utils/makemod.c: main"]}
{"id": "C197", "title": "Bodies stay in the model", "statement": "A diffractor or ellipse of makemod changes exactly the grid points it covers inside the model and nothing outside.", "quantifier": "all sizes, positions, radii, spacings and values", "why_tests_cant": "Every position near an edge.", "anchors": ["utils/diffraction.c: diffraction", "utils/elipse.c: elipse"]}
{"id": "C198", "title": "Extending a model in the third dimension", "statement": "extend3D moves the model down to the interface and fills the part above with the first sample, for every interface.", "quantifier": "all models, sizes and interface depths", "why_tests_cant": "Every depth, including those at the edges.", "anchors": ["utils/extend3D.c: main"]}
{"id": "C199", "title": "Replacing values", "statement": "changevalue replaces exactly the samples in the closed range, and applying it again changes nothing.", "quantifier": "all samples, ranges and values", "why_tests_cant": "All inputs.", "anchors": ["utils/changevalue.c: main"]}
{"id": "C200", "title": "Summing delayed snapshot files", "statement": "combine_induced writes, at every time, the sum over the files of their snapshot at that time minus their delay, for the files that have started.", "quantifier": "all numbers of files, delays, snapshots per file, sizes and samples", "why_tests_cant": "Every number of snapshots and files; the error reads memory after the array.", "anchors": ["utils/combine_induced.c: main"]}
{"id": "C201", "title": "The sum does not depend on the threads", "statement": "The sum combine_induced writes is the same for every schedule of its threads.", "quantifier": "all schedules, numbers of files and samples", "why_tests_cant": "A race shows only on some schedules.", "anchors": ["utils/combine_induced.c: main"]}
{"id": "C202", "title": "Response of a layered medium", "statement": "makeR1D gives, for every source and receiver, the input trace at the distance from the source to the receiver.", "quantifier": "all records, spacings, origins, numbers and spacings of sources and receivers", "why_tests_cant": "Every geometry.", "anchors": ["utils/makeR1D.c: main"]}
{"id": "C203", "title": "Wavenumber filter of basop", "statement": "The kx-w filter of basop multiplies every wavenumber by a number between 0 and 1, the same for both directions, that does not grow with the wavenumber: 1 for angles below the given one and 0 beyond the taper.", "quantifier": "all numbers of wavenumbers, angles, frequencies and taper lengths", "why_tests_cant": "Every angle, frequency and taper; the error writes before an array.", "anchors": ["utils/kxwfilter.c: kxwfilt", "utils/basop.c: main"]}
{"id": "C204", "title": "Size of a model file", "statement": "A model is used with the number of traces and the spacings of its file.", "quantifier": "all file sizes and spacings", "why_tests_cant": "Every size and spacing.", "anchors": ["fdelmodc/getModelInfo.c: getModelInfo"]}
{"id": "C205", "title": "Wavelets of convhomg", "statement": "convhomg uses every sample of a wavelet at its own time, positive times from the start and negative times from the end.", "quantifier": "all lengths of wavelets and data, all samples", "why_tests_cant": "Every length; the errors lose a sample or leave the array.", "anchors": ["utils/convhomg.c: main"]}
{"id": "C206", "title": "Stabilised deconvolution", "statement": "Multiplying the deconvolved data by the wavelet gives the data damped by a number between 0 and 1 at every frequency, exactly the data without stabilisation, and no division by zero.", "quantifier": "all spectra, frequencies and stabilisations", "why_tests_cant": "All spectra.", "anchors": ["utils/convhomg.c: deconv"]}
{"id": "C207", "title": "Medium of the electromagnetic program", "statement": "Every point of the grid, boundary layers and corners included, has the permittivity and conductivity of the nearest sample of the model.", "quantifier": "all model sizes, layer lengths, sides with layers and points", "why_tests_cant": "Every size, layer and side.", "anchors": ["fdemmodc/readEmModel.c: readEmModel", "fdemmodc/getEmParameters.c: getParameters"]}
{"id": "C208", "title": "Constants of the electromagnetic program", "statement": "Waves travel with the velocity of light over the root of the relative permittivity, and the ratio of the fields is that of the vacuum constants.", "quantifier": "all permittivities and samplings", "why_tests_cant": "A statement about every medium.", "anchors": ["fdemmodc/readEmModel.c: readEmModel", "fdemmodc/em4.c: em4"]}
{"id": "C209", "title": "Receivers on a line of points", "statement": "With a line of points green puts receivers at equal distances on the line from the first to the last point.", "quantifier": "all numbers of points, positions and spacings", "why_tests_cant": "Every line; the error writes after the arrays.", "anchors": ["utils/getrecpos.c: getrecpos", "utils/green.c: main"]}
{"id": "C210", "title": "Shapes of interfaces", "statement": "Each column of a sinuous or fractal interface of makemod gets the cell nearest to the depth of the interface plus its shape, never above the model; the shapes are bounded by their amplitudes.", "quantifier": "all interfaces, shapes, phases, cell sizes and columns", "why_tests_cant": "Every interface and every random phase.", "anchors": ["utils/sinuousint.c: sinuousint", "utils/fractint.c: fractint"]}
{"id": "C211", "title": "Rough interfaces", "statement": "A rough interface is determined by its seed, with mean zero, a standard deviation of half the amplitude, and a spectrum weighted at all wavenumbers.", "quantifier": "all random numbers, lengths, weights and amplitudes", "why_tests_cant": "Every sequence of random numbers; the error is memory that is not set.", "anchors": ["utils/roughint.c: roughint, statics"]}
{"id": "C212", "title": "Blocking a well log", "statement": "readlog gives every depth sample the values of the last line of the log at or above its depth, and reads no other memory.", "quantifier": "all logs, numbers of lines, depths and sample distances", "why_tests_cant": "Every log; the error reads after a table.", "anchors": ["utils/readlog.c: main"]}
{"id": "C213", "title": "Conversion of binary gathers", "statement": "mat2su writes the gathers of its input in order, each with its own numbers, up to the number asked for.", "quantifier": "all files, gather sizes and numbers of gathers", "why_tests_cant": "Every file length.", "anchors": ["utils/mat2su.c: main"]}
{"id": "C214", "title": "Positions in the 3D program", "statement": "A source or receiver at a node of the model acts, or records, at the array element where the model has that node; sources outside the model are left out.", "quantifier": "all grids, layer lengths, types of sides and nodes", "why_tests_cant": "Every combination of sides.", "anchors": ["fdelmodc3D/applySource3D.c: applySource3D", "fdelmodc3D/getRecTimes3D.c: getRecTimes3D", "fdelmodc3D/readModel3D.c: readModel3D"]}
{"id": "C215", "title": "Source amplitude of the 3D program", "statement": "A source acts between its begin and end only, with its wavelet interpolated linearly at the time since its begin.", "quantifier": "all wavelets, times, steps and delays", "why_tests_cant": "Every time and delay.", "anchors": ["fdelmodc3D/applySource3D.c: applySource3D"]}
{"id": "C216", "title": "Recording between grid points in the 3D program", "statement": "A receiver between grid points records the field interpolated in three directions at its own position: fields linear in position exactly, nodes exactly, never outside the range of the field; each velocity component from its own field.", "quantifier": "all grids, positions and fields", "why_tests_cant": "Every position and field.", "anchors": ["fdelmodc3D/getRecTimes3D.c: getRecTimes3D"]}
{"id": "C217", "title": "Recording at grid points in the 3D program", "statement": "A receiver at a grid point records the components asked for; with interpolation in the acoustic scheme, at the place and time of the other component as the mean of the four values around it in space and time.", "quantifier": "all fields, media, receivers, interpolation options and schemes", "why_tests_cant": "Every field, medium and option.", "anchors": ["fdelmodc3D/getRecTimes3D.c: getRecTimes3D", "fdelmodc3D/acoustic4_3D.c: acoustic4_3D"]}
