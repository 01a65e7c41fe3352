{"id": "C01", "title": "ceilpow2 is the least power of two >= n", "statement": "ceilpow2(n) returns the smallest power of two that is >= n for every 64-bit n with 1 <= n <= 2^63 (and 0 for n=0 and for every n > 2^63).", "quantifier": "every 64-bit size_t value", "why_tests_cant": "2^64 inputs; the bit-smearing chain must be right at every bit position", "anchors": ["utils.h: ceilpow2"]}
{"id": "C02", "title": "ceilpow and pow", "statement": "utils::pow(x,y) is x^y and ceilpow(p,n) terminates and returns the smallest power of p that is >= n, for every base p >= 2 and n >= 1 (no 64-bit overflow).", "quantifier": "all bases, exponents and thresholds", "why_tests_cant": "unbounded domain; loop termination and minimality over all powers", "anchors": ["utils.h: pow, ceilpow"]}
{"id": "C03", "title": "nextfftsize is the least 7-smooth number >= m", "statement": "nextfftsize(m) terminates and returns a number of the form 2^a 3^b 5^c 7^d that is >= m, and no smaller number of that form is >= m, for every m >= 1.", "quantifier": "every m >= 1", "why_tests_cant": "minimality ranges over all 4-tuples of exponents for all m", "anchors": ["convolve.cc: nextfftsize"]}
{"id": "C04", "title": "nextpuresize / ispow2 / ispure", "statement": "ispow2(m) holds iff m is a power of 2, ispure(m) iff m is a power of 2, 3, 5 or 7, and nextpuresize(m) is the least pure number >= m, for every m >= 1.", "quantifier": "every m >= 1", "why_tests_cant": "iff over an unbounded domain", "anchors": ["convolve.cc: nextpuresize, ispow2, ispure"]}
{"id": "C05", "title": "Padding parameters always reach the requested size", "statement": "For every L <= M, m >= 1: with the p, n, q computed from (L,M,m), p is the least number of m-blocks covering L, the padded length N=m*q is >= M, N is a multiple of the block length, and q=1 exactly when the padded length is a single block (m >= M); the constructor's 'Invalid parameters' exit can never fire.", "quantifier": "all L, M, m and both centered/noncentered modes", "why_tests_cant": "all integers; the parity special-cases p=2 and centered even p", "anchors": ["convolve.cc: fftBase::parameters, fftBase::common", "align.h: ceilquotient"]}
{"id": "C06", "title": "The residue loop visits every residue exactly once and terminates", "statement": "For every valid (p,n,D), iterating r=0; r<R; r+=increment(r) terminates, nloops() counts its iterations, and the blocks processed over all iterations cover each of the n residues exactly once.", "quantifier": "all n, D accepted by valid(), all iterations", "why_tests_cant": "number of iterations unbounded; partial first block D0 and conjugate pairing", "anchors": ["convolve.h: increment, residueBlocks, nloops, Dr, conjugates", "convolve.cc: fftPad::init"]}
{"id": "C07", "title": "index(r,i) is a bijection onto the padded frequencies", "statement": "Over all residue blocks r of the loop and all positions i < noutputs(r), index(r,i) takes every value in [0,N) exactly once.", "quantifier": "all valid parameters, all r, all i", "why_tests_cant": "all sizes; a multiplier that uses indices relies on it", "anchors": ["convolve.h: fftBase::index, noutputs, blocksize"]}
{"id": "C08", "title": "forward computes the padded DFT", "statement": "For every input f of length L, every valid noncentered parameter choice and every residue block r, forward(f,F,r,W) leaves in F[i] exactly the value at frequency index(r,i) of the DFT of f zero-padded to N=m*q (exact arithmetic), for every i < noutputs(r), and does not change f.", "quantifier": "all inputs, sizes, parameter choices, residue blocks", "why_tests_cant": "infinitely many inputs and sizes; tests sample a few parameter combinations", "anchors": ["convolve.cc: fftPad::forwardExplicit, forward1, forward2, forwardInner and Many variants"]}
{"id": "C09", "title": "backward is the unnormalized inverse of forward", "statement": "Running, over all residue blocks, forward then backward leaves N*f[j] for every j<L, whatever was previously in the accumulation array and the work buffers; hence normalization by 1/N is the identity.", "quantifier": "all inputs, sizes, parameters, all prior buffer contents", "why_tests_cant": "all inputs and prior memory contents", "anchors": ["convolve.cc: fftPad::backward*", "convolve.h: normalization"]}
{"id": "C10", "title": "convolve with multBinary is the N-periodic cyclic convolution; dealiased when M >= 2L-1", "statement": "convolve(f) with A=2,B=1 and multBinary leaves in f[0][k], k<L, the sum of f0[i]*f1[j] over i+j congruent to k mod N; if M >= 2L-1 this is the linear convolution sum over i+j=k.", "quantifier": "all inputs, L, M, and every m, D, in-place/out-of-place choice the optimizer may pick", "why_tests_cant": "the optimizer's choice is timing-dependent, so any valid parameter set may run", "anchors": ["convolve.cc: Convolution::convolveRaw, multBinary", "convolve.h: Convolution::convolve, normalize, operate"]}
{"id": "C11", "title": "The result does not depend on the optimizer's choice", "statement": "Any two valid parameter choices (m,D,inplace) whose padded lengths are both >= 2L-1 give the same convolution of the same inputs.", "quantifier": "all pairs of parameter choices, all inputs", "why_tests_cant": "which algorithm runs depends on timing noise", "anchors": ["convolve.cc: OptBase::scan, check", "convolve.h: Convolution"]}
{"id": "C12", "title": "Repeated calls are independent of history", "statement": "A Convolution object may be reused: whatever sequence of convolve() calls was made before, and whatever the work buffers contain, the next call gives the same result as on a fresh object (zero padding in W is re-established).", "quantifier": "all histories of calls on one object", "why_tests_cant": "unbounded call histories", "anchors": ["convolve.h: backwardPad, Pad, W0", "convolve.cc: padSingle, padMany"]}
{"id": "C13", "title": "No out-of-bounds access with the documented buffer sizes", "statement": "With f of inputLength*S, F of outputSize, W of workSizeW and the tables as allocated, every read and write made by forward/backward/convolve is inside its buffer.", "quantifier": "all valid parameters, all residue blocks, all loop iterations", "why_tests_cant": "ASan only sees executed sizes", "anchors": ["convolve.h: outputSize, workSizeW, workSizeV", "convolve.cc: initZetaqm, fftPad::init"]}
{"id": "C14", "title": "Parallel loops are race free and schedule independent", "statement": "In each OpenMP loop of the transform routines distinct iterations touch disjoint data, so every interleaving of the threads' loads and stores ends in the same memory as the sequential loop.", "quantifier": "all schedules/interleavings, all sizes, all thread counts", "why_tests_cant": "number of interleavings is exponential", "anchors": ["parallel.h: PARALLEL, PARALLELIF", "convolve.cc: all PARALLELIF loops"]}
{"id": "C15", "title": "Only the first B inputs and the work arrays are modified", "statement": "convolve(f) without overwrite leaves f[a] unchanged for B <= a < A, and never writes outside f[0..B), F, V, W.", "quantifier": "all inputs, parameters and A, B", "why_tests_cant": "frame property over all memory", "anchors": ["convolve.cc: Convolution::convolveRaw"]}
{"id": "C16", "title": "The two-pass (loop2) buffer rotation preserves data", "statement": "When nloops()==2 and A > B, the rotation of work buffers F/Fp computes the same as the generic residue loop (no transform is overwritten before it has been used and each output receives both residue blocks) whenever A-B divides B; when A-B does not divide B (for example A=3, B=1) the result can be wrong.", "quantifier": "all A > B", "why_tests_cant": "all A,B; holds only if (A-B) divides B: for other A,B the code violates it", "anchors": ["convolve.h: Convolution::init (Fp), Convolution2::init", "convolve.cc: convolveRaw loop2"]}
{"id": "C17", "title": "2D and 3D convolution reduce correctly to 1D", "statement": "Convolution2::convolve (and Convolution3) computes the 2D (3D) cyclic convolution of period Nx by Ny (by Nz), hence the linear one when dealiased, for every combination of valid 1D parameters in the directions.", "quantifier": "all inputs, sizes, parameter combinations", "why_tests_cant": "combinatorial explosion of parameter choices per direction", "anchors": ["convolve.h: Convolution2, Convolution3, subconvolution"]}
{"id": "C18", "title": "Stride gaps are never touched", "statement": "With stride S > C, elements c in [C,S) of each row of f are neither modified nor influence the result.", "quantifier": "all C, S, inputs", "why_tests_cant": "all strides and contents of gaps", "anchors": ["convolve.cc: *Many routines"]}
{"id": "C19", "title": "The optimizer terminates and returns valid parameters", "statement": "scan() terminates for every L <= M and Application, and the (m,D,inplace) it selects either satisfies valid(...) or is the explicit fallback m=M, D=1; so the constructor never aborts on its own choice.", "quantifier": "all L, M, Application settings, and all timing outcomes", "why_tests_cant": "timings are nondeterministic; loops over sizes unbounded", "anchors": ["convolve.cc: OptBase::scan, opt, optloop, check"]}
{"id": "C20", "title": "Running statistics are exact for every sample sequence", "statement": "After any sequence of add(t): count, mean, min, max and sum are those of the sequence, varL+varH is the sum of squared deviations from the mean, and median() is the middle order statistic (mean of the two middle ones for even count).", "quantifier": "all finite sequences of samples in any order", "why_tests_cant": "all orders; the two-heap invariant is history dependent", "anchors": ["statistics.h: statistics::add, median, mean, stdev"]}
{"id": "C21", "title": "HermitianSymmetrize enforces Hermitian symmetry", "statement": "HermitianSymmetrizeX (XY) produces data satisfying f(-x,0)=conj f(x,0) (f(-x,-y,0)=conj f(x,y,0)), real at the origin, leaves the independent half unchanged, zeroes Nyquist rows when x0=Hx (y0=Hy), stays in bounds, and is idempotent.", "quantifier": "all sizes, strides, data", "why_tests_cant": "all shapes incl. the Nyquist cases", "anchors": ["convolve.h: HermitianSymmetrizeX, HermitianSymmetrizeXY"]}
{"id": "C22", "title": "Multi-threaded batched FFTs partition the batch", "statement": "The T-way split of M transforms used by mfft1d executes each of the M transforms exactly once, with the right input and output offsets, for every M and T.", "quantifier": "all M, T with T <= M", "why_tests_cant": "all remainders R", "anchors": ["fftw++.h: fftwblock::init, Execute"]}
{"id": "C23", "title": "localdimension partitions the global dimension", "statement": "Over ranks 0..size-1, the intervals [start,start+n) are disjoint, in order and cover [0,N) for every N and size >= 1; no rank's block is larger than ceil(N/size).", "quantifier": "all N, size, rank", "why_tests_cant": "ranks with empty blocks appear only for specific N,size", "anchors": ["mpi/mpitranspose.h: localdimension", "mpi/mpigroup.h: split"]}
{"id": "C24", "title": "Gather reassembles the distributed array", "statement": "gatherx/gathery place every element of the distributed array at its global position on rank 0, for every N, size, with empty blocks skipped consistently by sender and receiver (no deadlock, no stray message).", "quantifier": "all shapes, process counts", "why_tests_cant": "all process counts and message histories", "anchors": ["mpi/mpiutils.h: gatherx, gathery", "mpi/mpitranspose.h: copyfromblock"]}
{"id": "C25", "title": "The all-to-all schedule is a consistent perfect timetable", "statement": "fill1_comm_sched gives each process a permutation of all processes and at each step the pairing is symmetric: if at step k process p talks to q then q talks to p.", "quantifier": "all process counts and ranks", "why_tests_cant": "all npes; basis of deadlock freedom", "anchors": ["mpi/mpitranspose.cc: fill1_comm_sched"]}
{"id": "C26", "title": "The distributed transpose moves every element to its place", "statement": "localize0 (outphase) takes the n x M slabs to N x m slabs with the global matrix unchanged, for every N, M and number of processes, and localize1 is its inverse.", "quantifier": "all N, M, L, process counts, message orders", "why_tests_cant": "all process counts/remainders; schedules", "anchors": ["mpi/mpitranspose.h: outphase0, outphase, inphase0, inpost, Ialltoallout, Ialltoallin"]}
{"id": "C27", "title": "Array indexing is in-bounds and injective", "statement": "For array1..array3 (and offset Array1..3), valid multi-indices map injectively onto [0,size) and subarray views A[i][j][k] refer to the same element as A(i,j,k); out-of-range indices are rejected in checking mode.", "quantifier": "all dimensions, indices, offsets", "why_tests_cant": "all shapes", "anchors": ["Array.h: array1, array2, array3, Array1, Array2"]}
{"id": "C28", "title": "Shift moves the Fourier origin to the centre", "statement": "Shift multiplies element (i,j) by (-1)^i (3D: (-1)^(i+j)), is an involution, touches exactly nx*nyp (nx*ny*nzp) elements, and transforming after it rotates the spectrum by nx/2 (ny/2).", "quantifier": "all even nx, ny, all nz, all data", "why_tests_cant": "all sizes and data", "anchors": ["fftw++.h: fftw::Shift"]}
{"id": "C29", "title": "fftNormalized of the opposite sign inverts fft", "statement": "For fft1d and mfft1d of every size, stride and distance, transforming with sign s then fftNormalized with sign -s returns the original data exactly (exact arithmetic).", "quantifier": "all sizes, strides, distances, data", "why_tests_cant": "all inputs", "anchors": ["fftw++.h: fftw::Normalize, fftNormalized, fft1d, Mfft1d"]}
{"id": "C30", "title": "SIMD complex helpers compute complex arithmetic", "statement": "ZMULT, ZCMULT, ZMULTI, ZCMULTI, ZMULT2 and their X,Y precomputed forms compute z*w, conj(z)*w, i*z*w, i*conj(z)*w and z*w+conj(z)*v for all operands.", "quantifier": "all operands", "why_tests_cant": "continuous domain", "anchors": ["cmult-sse2.h"]}
{"id": "C31", "title": "ComplexAlign(n,size) returns disjoint aligned buffers", "statement": "The n returned buffers lie inside the one allocation, are pairwise disjoint, and each starts at a multiple of ALIGNMENT Complex words from the base; align(n) >= n.", "quantifier": "all n, size, power-of-two alignments", "why_tests_cant": "all sizes", "anchors": ["align.h: ComplexAlign, doubleAlign, align"]}
{"id": "C32", "title": "Correlation multiplier", "statement": "convolve with multcorrelation gives sum over i-j congruent to k mod N of f0[i]*conj(f1[j]).", "quantifier": "all inputs and parameters", "why_tests_cant": "all inputs and parameters", "anchors": ["convolve.cc: multcorrelation"]}
{"id": "C33", "title": "What happens to a user-supplied work array W", "statement": "A W passed to the Convolution constructor is not used: for in-place transforms convolve gives the same results as when no W is passed, and there are out-of-place parameter choices for which convolve with the user's W does not terminate normally.", "quantifier": "all out-of-place configurations", "why_tests_cant": "holds for no out-of-place configuration: the constructor discards the pointer (violated by the code)", "anchors": ["convolve.h: Convolution::init (W=allocateW ? ... : NULL)"]}
{"id": "C34", "title": "Plan-time lookup table ordering is a strict total order", "statement": "The comparison used as key order of the thread-count tables is irreflexive, transitive and total (two keys are equivalent only if equal), so a stored thread count is returned for exactly the key it was stored under.", "quantifier": "all keys and store/lookup histories", "why_tests_cant": "all histories", "anchors": ["fftw++.h: keyless, Threadtable"]}
{"id": "C35", "title": "In-place overwrite variants agree with the general algorithm", "statement": "When the overwrite condition holds, convolve (which transforms inside the input arrays) leaves the same first B results as the non-overwrite algorithm.", "quantifier": "all inputs, m, C, S with L=p*m, n=p+1", "why_tests_cant": "all inputs and sizes", "anchors": ["convolve.cc: forward1All, forward2All, backward1All, backward2All and Many variants"]}
{"id": "C36", "title": "Centered transforms compute the padded DFT about the centre", "statement": "For the centered class, forward gives the DFT in which element j stands for position j-floor(L/2), and backward after forward gives N*f.", "quantifier": "all inputs, sizes, parameters", "why_tests_cant": "all inputs and sizes", "anchors": ["convolve.cc: fftPadCentered::*"]}
{"id": "C37", "title": "Hermitian transforms", "statement": "For Hermitian half-data, forward yields the (real) values of the centered padded DFT and backward recovers N*f.", "quantifier": "all Hermitian inputs, sizes", "why_tests_cant": "all inputs and sizes", "anchors": ["convolve.cc: fftPadHermitian::*"]}
{"id": "C38", "title": "Real transforms", "statement": "For every constructed fftPadReal, every real input and every initial contents of the buffers, after pad(W) and any sequence of earlier forward calls, forward(f,F,r,W) leaves in F[S*i+c] the DFT of length N=m*q of the zero-padded copy c at the frequency of output i of block r, modifying only F, W and the private work array; the blocks visited by the residue loop cover every frequency or its opposite; backward(F,h,r,W) sets (r=0) or increments (r>0) the doubles h[S*j+c] by the contribution of block r, counting each output once if its opposite frequency is in the block and twice otherwise, and nothing else outside the buffers; the loop forward/backward over all blocks gives N*f.", "quantifier": "all L,M,m,C,S,D accepted by the constructor, in place or not, all real inputs, all earlier contents and earlier calls, all visited residues", "why_tests_cant": "all inputs, sizes, parameter combinations and histories", "anchors": ["convolve.h: fftPadReal", "convolve.cc: fftPadReal::*"]}
{"id": "C39", "title": "MPIgroup uses a feasible number of processes", "statement": "For every X>0 (and Y>0) and communicator size, the reduced number of active processes is between 1 and the communicator size and every active rank owns a nonempty block in a slab decomposition.", "quantifier": "all X, Y, sizes", "why_tests_cant": "all process counts", "anchors": ["mpi/mpigroup.h: MPIgroup"]}
{"id": "C40", "title": "Thread division", "statement": "multithread(n) leaves threads*innerthreads equal to the previous threads and never runs both levels in parallel.", "quantifier": "all n, thread counts", "why_tests_cant": "all values", "anchors": ["fftw++.h: ThreadBase::multithread"]}
{"id": "C41", "title": "Array storage is released once and as it was obtained", "statement": "In every history of constructions, copies, assignments, (re)allocations, deallocations, redirections and destructions of array1 objects, no storage is freed twice or without having been allocated; without alignment requests every block is released by the matching function; and if no operation abandons storage, everything is released when the arrays are gone.", "quantifier": "all histories of operations, both modes, all allocator behaviours", "why_tests_cant": "unbounded histories of operations", "anchors": ["Array.h: array1 Activate, Deallocate, Dimension, Allocate, Reallocate, Hold, Purge, operator=, swaparray"]}
{"id": "C42", "title": "Convolutions of centered data are about the centre", "statement": "With centered transforms in any of the directions of a 1D, 2D or 3D convolution, convolve leaves in the output the inverse transform of the product (or of any pointwise multiplier) of the centered transforms of the inputs, divided by the sizes; with multBinary this is the convolution in which element j of a centered direction stands for position j-floor(L/2), cyclic of period m*q, and linear if the requested size is at least L+floor(L/2) (centered) or 2L-1 (noncentered); after any history of calls.", "quantifier": "all inputs, sizes, parameters, classes in each direction, histories, thread counts and schedules", "why_tests_cant": "all inputs, sizes, histories and schedules", "anchors": ["convolve.h: Convolution, Convolution2, Convolution3, fftPadCentered", "convolve.cc: fftPadCentered::*, Convolution::convolveRaw"]}
{"id": "C43", "title": "Convolutions of Hermitian data", "statement": "With an fftPadHermitian transform, convolve leaves in the first B arrays the non-negative half of the inverse transform of the multiplier applied to the (real) transforms of the Hermitian sequences given by the inputs, divided by the size; with realMultBinary this is the convolution of the two Hermitian sequences, cyclic of period m*q and linear if the requested size M is at least 3*ceil(L/2)-2; element 0 of every output is real again, so that the output is again a valid input; after any history of calls and user writes, without out-of-bounds access or data race, changing nothing but the outputs and work arrays.", "quantifier": "all inputs with real zeroth element, all L, M, m, D, in or out of place, all A, B and real pointwise multipliers, all histories", "why_tests_cant": "all inputs, sizes, parameter choices and histories", "anchors": ["convolve.h: Convolution, fftPadHermitian", "convolve.cc: fftPadHermitian::*, realMultBinary, Convolution::convolveRaw"]}
{"id": "C44", "title": "Two-dimensional convolutions of Hermitian data", "statement": "A Convolution2 built from a centered transform in x and a Hermitian transform in y takes each input of Lx rows of ceil(Ly/2) stored columns as a Hermitian array (value at (-i,-j) the conjugate of the value at (i,j)), provided the stored column j=0 is Hermitian symmetric, and leaves in the first B arrays the inverse transform of the multiplier applied to the real transforms, divided by the sizes; with realMultBinary this is the 2D convolution of the Hermitian arrays, cyclic in general and linear for large enough requested sizes when the unpaired row of an even Lx is zero; HermitianSymmetrizeX establishes these conditions; the column j=0 of the outputs is again symmetric; nothing else is changed; after any history, with any number of threads and any schedule.", "quantifier": "all inputs, sizes, parameters, real pointwise multipliers, histories, thread counts and schedules", "why_tests_cant": "all inputs, sizes, parameter choices, histories and schedules", "anchors": ["convolve.h: Convolution2, fftPadCentered, fftPadHermitian, HermitianSymmetrizeX", "convolve.cc: Convolution2::*, fftPadHermitian::*, realMultBinary"]}
{"id": "C45", "title": "Three-dimensional convolutions of Hermitian data", "statement": "The same for a Convolution3 built from centered transforms in x and y and a Hermitian transform in z, contiguous or strided: inputs symmetric in the plane k=0 (as established by HermitianSymmetrizeXY), outputs the inverse transform of the multiplier applied to the real transforms and symmetric again; with realMultBinary the 3D convolution of the Hermitian arrays, cyclic or (large enough sizes, zero unpaired planes) linear.", "quantifier": "all inputs, sizes, strides, parameters, real pointwise multipliers, histories, thread counts and schedules in both levels", "why_tests_cant": "all inputs, sizes, parameter choices, histories and schedules", "anchors": ["convolve.h: Convolution3, fftPadCentered, fftPadHermitian, HermitianSymmetrizeXY", "convolve.cc: Convolution3::*, fftPadHermitian::*, realMultBinary"]}
{"id": "C46", "title": "Convolutions of real data", "statement": "Convolution::convolve on a transform of real data (fftPadReal) leaves in the L doubles of each of the B outputs the inverse transform, of size N=m*q >= M, of the user's multiplier (one that commutes with complex conjugation) applied to the transforms of the zero-padded real inputs; with multBinary this is the cyclic convolution of period N of the doubles, equal to the linear convolution if M >= 2L-1; with multcorrelation the cyclic correlation. It terminates without out-of-bounds access or data race for every contents of the work arrays, after any history of calls and user writes, and changes nothing but the outputs and the work arrays.", "quantifier": "all real inputs, lengths (odd and even), parameters m, D, in place or not, conjugation-equivariant multipliers, initial contents, histories, thread counts and schedules", "why_tests_cant": "all inputs, sizes, parameter choices, histories and schedules", "anchors": ["convolve.h: fftPadReal, Convolution::convolve, normalize", "convolve.cc: fftPadReal::*, Convolution::convolveRaw, multBinary, multcorrelation"]}
{"id": "C47", "title": "Two-dimensional convolutions of real data", "statement": "A Convolution2 built from a real transform (fftPadReal, Ly copies of stride Sx) in x and a complex transform (fftPad) in y takes each input as Lx rows of Ly doubles (row stride Sx doubles) and leaves in the doubles of the first B arrays the inverse 2D transform, of sizes Nx=mx*qx >= Mx and Ny=my*qy >= My, of the user's multiplier (one that commutes with complex conjugation) applied to the 2D transforms of the zero-padded inputs; with multBinary this is the cyclic 2D convolution of the real arrays, equal to the linear one if Mx >= 2Lx-1 and My >= 2Ly-1. It terminates without out-of-bounds access or data race for every contents of the work arrays, after any history of calls and user writes, any number of threads and any schedule, and changes nothing but the outputs and the work arrays.", "quantifier": "all real inputs, sizes, row strides, parameters in both directions, conjugation-equivariant multipliers, initial contents, histories, thread counts and schedules", "why_tests_cant": "all inputs, sizes, parameter choices, histories and schedules", "anchors": ["convolve.h: Convolution2, fftPadReal, fftPad, normalize", "convolve.cc: Convolution2::*, fftPadReal::*, multBinary"]}
{"id": "C48", "title": "Three-dimensional convolutions of real data", "statement": "The same as C47 for a Convolution3 built from a real transform (fftPadReal, Ly*Sy copies) in x and complex transforms in y and z: each input is Lx planes (stride Sx doubles) of Ly rows (stride Sy >= Lz doubles) of Lz doubles, gaps between rows allowed; convolve leaves the inverse 3D transform of the user's multiplier applied to the 3D transforms of the zero-padded inputs, with multBinary the cyclic 3D convolution of the real arrays, equal to the linear one if the requested sizes are at least 2L-1 in each direction; for all schedules of both levels of parallel loops and after any history; nothing outside the output arrays and the work arrays is changed.", "quantifier": "all real inputs, sizes, strides, parameters in the three directions, conjugation-equivariant multipliers, initial contents, histories, thread counts and schedules", "why_tests_cant": "all inputs, sizes, parameter choices, histories and schedules", "anchors": ["convolve.h: Convolution3, contiguous, fftPadReal, fftPad, normalize", "convolve.cc: fftPadReal::*, multBinary"]}
{"id": "C49", "title": "Distributed two-dimensional FFTs", "statement": "fft2dMPI on P processes (any P, any sizes X, Y, in place or out of place, any algorithm of the transpose): Forward of a global X x Y array distributed by rows terminates on all processes under every interleaving and every buffering choice of MPI, without deadlock or message left over, and leaves the unnormalized two-dimensional DFT of the array, distributed by columns, in the output array; Backward does the transform of the opposite sign from columns to rows; Forward, Backward, Normalize gives back the array; nothing but the output and work arrays is written (Backward also transposes its input array in place on processes that hold a power-of-two number of columns). Passing the documented default out=NULL to Forward dereferences a null pointer.", "quantifier": "all X, Y, P, options, arrays, interleavings of the processes and MPI buffering choices", "why_tests_cant": "interleavings, process counts, sizes and data are unbounded", "anchors": ["mpi/mpifftw++.h: fft2dMPI", "mpi/mpifftw++.cc: fft2dMPI::iForward, iBackward", "mpi/mpitranspose.h: mpitranspose", "fftw++.h: mfft1d, Transpose, Normalize"]}
{"id": "C50", "title": "Distributed two-dimensional FFTs of real data", "statement": "rcfft2dMPI on P processes (any P, any sizes, in place or out of place, any algorithm of the transpose): Forward of a real X x Y array distributed by rows terminates on all processes under every interleaving and every choice of the MPI library, with no message left over, and leaves the first Y/2+1 columns of its DFT distributed by columns; Forward0 (even X) does the same with the Fourier origin at X/2. Backward and Backward0 of a Hermitian spectrum give its inverse transform distributed by rows, whatever FFTW leaves in the words it destroys, and Forward, Backward, Normalize (or Forward0, Backward0, Normalize) gives back the array. deNyquist zeroes exactly the modes without an opposite.", "quantifier": "all X, Y, P, transpose options, in/out of place, real arrays and Hermitian spectra, interleavings, MPI buffering choices, unspecified FFTW values", "why_tests_cant": "tests run a few sizes and process counts with one schedule; the process counts that leave a process without columns exactly at the end, where deNyquist writes out of bounds, are easily missed", "anchors": ["mpi/mpifftw++.h:rcfft2dMPI", "mpi/mpifftw++.cc:rcfft2dMPI::Shift", "mpi/mpifftw++.cc:rcfft2dMPI::iForward", "mpi/mpifftw++.cc:rcfft2dMPI::iBackward"]}
{"id": "C51", "title": "Distributed three-dimensional FFTs, slabs and pencils", "statement": "fft3dMPI on the processes of an MPIgroup (any number of processes, with or without pencils, any sizes X, Y, Z, in place or out of place, any algorithms of the two transposes): Forward of a global X x Y x Z array distributed in x and y terminates on all active processes under every interleaving and every buffering choice of MPI, without deadlock or message left over or mixed up between the row and column communicators, and leaves the unnormalized three-dimensional DFT distributed in y and z; Backward does the transform of the opposite sign back to the distribution in x and y; Forward, Backward, Normalize gives back the array; nothing but the output and work arrays is written. Passing the documented default out=NULL to Forward dereferences a null pointer.", "quantifier": "all X, Y, Z, process counts, pencil flag, transpose options, arrays, interleavings of the processes and MPI buffering choices", "why_tests_cant": "interleavings of messages on two families of communicators, process counts, sizes and data are unbounded", "anchors": ["mpi/mpifftw++.h: fft3dMPI", "mpi/mpifftw++.cc: fft3dMPI::iForward, ForwardWait0, iBackward, BackwardWait0", "mpi/mpigroup.h: MPIgroup, split3", "mpi/mpitranspose.h: mpitranspose"]}
{"id": "C52", "title": "Distributed three-dimensional FFTs of real data, slabs and pencils", "statement": "rcfft3dMPI on the processes of an MPIgroup (any number of processes, with or without pencils, any sizes, in place or out of place, any algorithms of the two transposes): Forward of a real X x Y x Z array distributed in x and y terminates on all active processes under every interleaving and every choice of the MPI library, with no message left over, and leaves the first Z/2+1 planes of its DFT distributed in y and z; Forward0 (even X and Y) does the same with the Fourier origin at (X/2,Y/2,0). Backward and Backward0 of a Hermitian spectrum give its inverse transform distributed in x and y, whatever FFTW leaves in the words it destroys, and Forward, Backward, Normalize (or Forward0, Backward0, Normalize) gives back the array. deNyquist zeroes exactly the modes without an opposite. Nothing but the named arrays and the work arrays is written.", "quantifier": "all X, Y, Z, process counts, pencil flag, transpose options, in/out of place, real arrays and Hermitian spectra, interleavings, MPI buffering choices and unspecified FFTW values", "why_tests_cant": "interleavings of messages on two families of communicators, process counts, sizes and data are unbounded", "anchors": ["mpi/mpifftw++.h: rcfft3dMPI", "mpi/mpifftw++.cc: rcfft3dMPI::iForward, ForwardWait0, iBackward, BackwardWait0, Shift", "mpi/mpigroup.h: MPIgroup, split3", "mpi/mpitranspose.h: mpitranspose"]}
{"id": "C53", "title": "Distributed two-dimensional convolutions", "statement": "P processes construct Convolution2MPI from a transform in x of their columns and one in y, as the test programs do (each centered or not, D=1 and no overwriting in x, every process has a column). Whatever history of collective calls and of writes to the data preceded, and whatever the order of execution of the processes, the buffering choices of MPI, the schedule of the threads, the algorithm of the transposes and the contents of the work arrays: convolve(f,offset) ends on all processes without deadlock, out-of-bounds access or message left over, and each process ends with its columns of the inverse transform of the multiplier, given the x frequency that it is told, applied to the transforms of the global arrays (the x frequency told is wrong if P>1: a multiplier that depends on it gives another result); for multBinary, of their cyclic convolution, and of the linear one if the requested sizes are large enough. Nothing but the outputs and the work arrays is changed.", "quantifier": "all sizes, numbers of processes and threads, parameters, histories, data, multipliers, interleavings and MPI choices", "why_tests_cant": "interleavings, histories, process counts, sizes and data are unbounded", "anchors": ["mpi/mpiconvolve.h: Convolution2MPI", "convolve.h: Convolution2", "mpi/mpitranspose.h: mpitranspose"]}
{"id": "C54", "title": "Distributed two-dimensional convolutions of Hermitian-symmetric data", "statement": "As C53 with a centered transform in x and a Hermitian one in y, the processes holding the ceil(Ly/2) stored columns: convolve ends on all processes and, if the stored data are Hermitian symmetric in the line y=0, each process ends with its columns of the inverse transform of the multiplier applied to the (real) transforms of the represented arrays; for realMultBinary, of their cyclic (or, with enough padding, linear) convolution; the results are again Hermitian symmetric. HermitianSymmetrizeX(d,f) called by all processes establishes the condition on the data and keeps the independent half.", "quantifier": "all sizes, numbers of processes and threads, parameters, histories, data, real multipliers, interleavings and MPI choices", "why_tests_cant": "interleavings, histories, process counts, sizes and data are unbounded", "anchors": ["mpi/mpiconvolve.h: Convolution2MPI, HermitianSymmetrizeX", "convolve.h: Convolution2, fftPadHermitian", "mpi/mpitranspose.h: mpitranspose"]}
{"id": "C55", "title": "Distributed three-dimensional convolutions (slabs)", "statement": "P processes construct Convolution3MPI with a slab decomposition (each process holds some of the y planes of the input, all of x and z) from a transform in x of its words, one in y and one in z, as the test programs do (each centered or not, D=1 and no overwriting in x, every process has a plane). Whatever history of collective calls and of writes to the data preceded, and whatever the order of execution of the processes, the buffering choices of MPI, the schedules of the threads on both levels, the algorithm of the transposes and the contents of the work arrays: convolve(f,offset) ends on all processes without deadlock, out-of-bounds access or message left over, and each process ends with its slab of the inverse transform of the multiplier, given the x frequency that it is told, applied to the transforms of the global arrays; for multBinary, of their cyclic convolution, and of the linear one if the requested sizes are large enough. Nothing but the outputs and the work arrays is changed.", "quantifier": "all sizes, numbers of processes and threads, parameters, histories, data, multipliers, interleavings and MPI choices", "why_tests_cant": "interleavings, histories, process counts, sizes and data are unbounded", "anchors": ["mpi/mpiconvolve.h: Convolution3MPI", "convolve.h: Convolution3, Convolution2", "mpi/mpitranspose.h: mpitranspose"]}
{"id": "C56", "title": "Distributed three-dimensional convolutions of Hermitian-symmetric data (slabs)", "statement": "P processes construct Convolution3MPI with a slab decomposition from a centered transform in x of its words, a centered one in y and a Hermitian one in z of length Lz (ceil(Lz/2) stored words), as mpi/tests/hybridconvh3.cc does (D=1 and no overwriting in x, every process has a plane). Whatever history of collective calls and of writes to the data preceded, and whatever the order of execution of the processes, the buffering choices of MPI, the schedules of the threads, the algorithm of the transposes and the contents of the work arrays: convolve(f,offset) ends on all processes without deadlock, out-of-bounds access or message left over; if the processes held the slabs of arrays Hermitian symmetric in the plane z=0, each ends with its slab of the inverse transform of the real multiplier applied to the transforms of the represented arrays, Hermitian symmetric in the plane z=0 across the processes; for realMultBinary, of their cyclic convolution, and of the linear one if the requested sizes are large enough and the unpaired planes are zero. Nothing but the outputs and the work arrays is changed.", "quantifier": "all sizes, numbers of processes and threads, parameters, histories, data, real multipliers, interleavings and MPI choices", "why_tests_cant": "interleavings, histories, process counts, sizes and data are unbounded", "anchors": ["mpi/mpiconvolve.h: Convolution3MPI", "mpi/tests/hybridconvh3.cc", "convolve.h: Convolution3, Convolution2", "mpi/mpitranspose.h: mpitranspose"]}
{"id": "C57", "title": "Distributed Hermitian symmetrization in three dimensions (slabs)", "statement": "P processes hold the slabs (rows y) of any X by Y by Z array of complex numbers, and each calls HermitianSymmetrizeXY(d,f,u). For all X, Y, Z > 0 of any parity and any number of processes (also more than there are rows), all orders of execution of the processes and all buffering choices of MPI: the construction of the table d.reflect and the call end on all processes without deadlock, out-of-bounds access, exit or message left over; the table tells the process of the reflection of every row; and the processes then hold the slabs of the Hermitian symmetrization of the array: in the plane z=0 the half that follows the origin is kept, the origin is made real, the other half are the conjugates of the reflections, the other planes are kept, and the Nyquist planes are zero. The same holds for a single process. Nothing but the slabs and the work arrays is changed.", "quantifier": "all sizes, numbers of processes, data, interleavings and MPI buffering choices", "why_tests_cant": "interleavings, sizes, process counts and data are unbounded", "anchors": ["mpi/mpiconvolve.cc: HermitianSymmetrizeXY", "mpi/mpiconvolve.h: HermitianSymmetrizeXY", "mpi/mpigroup.h: split3", "convolve.h: HermitianSymmetrizeXY"]}
{"id": "C58", "title": "The direct convolutions, and the hybrid ones against them", "statement": "directconv (convolve, convolveC, autoconvolve), directconvh, directconv2, directconvh2, directconv3 and directconvh3, which the project's tests take as the reference, compute for all sizes, strides and data the linear convolution of their inputs, reading and writing inside the arrays and changing nothing but the output; for Hermitian data the linear convolution of the represented arrays over all pairs of wave numbers, the unpaired Nyquist rows excluded when not compact, and with symmetrize=true that of the Hermitian symmetrizations, which the inputs then hold. For all data, all plan parameters and every history of calls, Convolution, Convolution2 and Convolution3 (complex, centered and Hermitian) give word for word the outputs of the direct convolutions as soon as the requested sizes M hold the linear convolution.", "quantifier": "all sizes, strides, parities, data, plan parameters and histories", "why_tests_cant": "the tests compare the two programs on random data for finitely many sizes; both could be wrong in the same way", "anchors": ["tests/direct.h: directconv, directconvh, directconv2, directconvh2, directconv3, directconvh3", "tests/direct.cc", "convolve.h: Convolution, Convolution2, Convolution3"]}
{"id": "C59", "title": "The convolutions of the C interface and of the Python interface", "statement": "For all sizes within the range of the optimizer, whatever the optimizer measures, the objects of fftwpp_create_conv1d/conv2d/conv3d and fftwpp_create_hconv1d/hconv2d/hconv3d are built with a plan of sufficient padding, and after any history of writes to the user's arrays and of convolutions with any legal inputs and thread schedules, the _convolve functions leave in their first argument the linear convolution of the two inputs (for Hermitian data: of the represented arrays). fftwpp.HConvolution of the Python interface does so for arbitrary data, the inputs being replaced by their Hermitian symmetrizations first; nothing is read or written outside of the arrays. (For two and three dimensions the last axis must have at least two stored words, see finding 39.)", "quantifier": "all sizes, timings, data, histories of calls, thread counts and schedules", "why_tests_cant": "the plan depends on timings, so that a test sees one of the many plans that users get", "anchors": ["wrappers/HybridConvolution.h", "wrappers/cfftw++.cc: fftwpp_create_conv1d, fftwpp_conv1d_convolve, fftwpp_create_hconv1d, fftwpp_hconv1d_convolve, and those of 2d and 3d", "wrappers/fftwpp.py: HConvolution", "convolve.h: fftPad, fftPadCentered, fftPadHermitian (constructors with an optimizer)"]}
{"id": "C60", "title": "Fourier transforms of real data on one process", "statement": "For all sizes, in place or out of place, rcfft1d, rcfft2d, rcfft3d: fft gives the half spectrum (sign -1) of the real array and fft0, for even sizes, the one with Fourier origin (nx/2,0) or (nx/2,ny/2,0); crfft1d, crfft2d, crfft3d: from the half of a spectrum with Hermitian symmetry fft and fft0 give its transform (sign +1), which is real; fftNormalized and fft0Normalized divide by the number of values, so that the backward transform of the forward transform is the original array; deNyquist zeroes exactly the modes without opposite. Rows in place are padded to 2*(n/2+1) doubles. Nothing but the two arrays is written, and only fft0 writes the input of a forward transform. fft0 of odd sizes and calls that are in place for an object that is not (or conversely) exit.", "quantifier": "all sizes, all array contents, all values that FFTW leaves unspecified, all thread schedules of the loops", "why_tests_cant": "the statement is for all sizes and all real arrays; the parities of the sizes and the padding interact", "anchors": ["fftw++.h: rcfft1d, crfft1d, rcfft2d, crfft2d, rcfft3d, crfft3d, fftw::fft, fftw::fft0, fftw::fftNormalized, fftw::fft0Normalized, fftw::Setout, fftw::Normalize, Shift, realsize"]}
{"id": "C61", "title": "Batched Fourier transforms of real data", "statement": "mrcfft1d and mcrfft1d, for every length, number of vectors, strides and distances (different elements of an array being different words), in place or out of place, and every number of threads and order in which the blocks of the batch are executed: fft of mrcfft1d gives the half spectrum (sign -1) of every vector and writes nothing but the spectra; fft of mcrfft1d gives from half spectra with Hermitian symmetry their transforms (sign +1), which are real, and writes nothing but the two arrays; fftNormalized divides by the length, and undoes the forward transform. A call that is in place for an object that is not, or conversely, exits. An object constructed without arrays plans on an array with room for all elements. (In place and split among threads, the distances of vectors and spectra must be equal in bytes; the code does not check this.)", "quantifier": "all lengths, numbers of vectors, strides, distances, threads, orders of the blocks, array contents, values that FFTW leaves unspecified", "why_tests_cant": "the layouts, the remainders of the split and the orders of the threads are unbounded", "anchors": ["fftw++.h: mrcfft1d, mcrfft1d, Mrcfft1d, Mcrfft1d, fftwblock, Doubles, fftw::Normalize, fftw::fftNormalized"]}
{"id": "C62", "title": "Complex Fourier transforms on one process", "statement": "fft1d, fft2d and fft3d, for all sizes, both signs, in place or out of place: fft and fft0 (the same for complex data) put the unnormalized DFT of the given sign of the array at the output, in natural order, and write nothing else; fft by one object followed by fftNormalized by the object of the opposite sign gives back every value of the original array. A call that is in place for an object that is not, or conversely, exits.", "quantifier": "all sizes, signs, array contents, in place and out of place", "why_tests_cant": "sizes and contents are unbounded", "anchors": ["fftw++.h: fft1d, fft2d, fft3d, fftw::fft, fftw::fft0, fftw::fftNormalized, fftw::fft0Normalized, fftw::Normalize, fftw::Setout"]}
{"id": "C63", "title": "The class Complex computes with complex numbers", "statement": "For all operands: the operators of Complex compute in the field of complex numbers, also mixed with real numbers and also when the two sides of a compound assignment (x*=x, x/=x) are the same object, and nothing else is changed; == and != decide equality; conj, abs, abs2, realProduct, polar, expi and exp are the usual functions; sqrt is the principal square root; arg is the principal argument and pow the principal power (with 0^0=1) of everything but negative real numbers. (For negative real numbers x, arg gives 0 and pow(x,u) gives |x|^u; so pow(Complex(-1),3) is 1.)", "quantifier": "all operands, aliased or not", "why_tests_cant": "the operands range over a continuum", "anchors": ["Complex.h: Complex, sqrt, polar, exp, expi, pow, arg, multconj, realProduct"]}
{"id": "C64", "title": "The SSE2 build and the portable build agree bit for bit", "statement": "Compiled with SSE2 intrinsics or without, every SIMD helper (UNPACKL, FLIP, CONJ, ZMULTI, SQRT, loads and stores, ZMULT, ZCMULT, ZMULT2 and the forms with precomputed factors) gives the same bits for all bit patterns of the operands, whatever the rounding of the machine, with the compiler's vector operators or those of the header.", "quantifier": "all bit patterns of all operands (NaNs, infinities and signed zeros included), all roundings", "why_tests_cant": "2^128 patterns for each operand, two builds", "anchors": ["cmult-sse2.h", "convolve.cc: sse2_pm, sse2_mm"]}
{"id": "C65", "title": "Aligned allocation without posix_memalign", "statement": "For every size, every alignment that is a power of 2 and a multiple of sizeof(void*), and every malloc that returns addresses that are multiples of sizeof(void*): the address posix_memalign0 gives is a multiple of the alignment, the requested bytes lie in the block malloc returned, the only word written is in the block, before them, and free0, called whatever the user has written to the requested bytes, frees exactly the block malloc returned. Other alignments give EINVAL, a failure of malloc ENOMEM; free0(NULL) frees nothing. (The alignment 0 and sizes close to 2^64 are not rejected.)", "quantifier": "all sizes, alignments, addresses returned by malloc, contents written by the user", "why_tests_cant": "the addresses are chosen by the system", "anchors": ["align.h: posix_memalign0, free0"]}
{"id": "C66", "title": "2D and 3D correlations", "statement": "Convolution2 and Convolution3 with multcorrelation, for complex data (fftPad) and for data real in x (fftPadReal): after any sequence of calls made before on the same object, with any threads and schedules, convolve leaves in the first array, at every (i,j) or (i,j,k), the cyclic correlation of the two arrays with periods m*q in each dimension; if each padded size is at least 2L-1, the correlation itself: the sum over i1-i2=i, j1-j2=j (, k1-k2=k) of f(i1,j1)conj(g(i2,j2)).", "quantifier": "all shapes, paddings, parameters of the planner, inputs, histories, numbers of threads and schedules", "why_tests_cant": "infinitely many shapes, inputs and schedules", "anchors": ["convolve.cc: multcorrelation", "convolve.h: Convolution2::convolveRaw, Convolution3::convolveRaw"]}
{"id": "C67", "title": "Lifecycle of arrays of objects in aligned memory", "statement": "For every type, length and valid alignment (a power of 2 and a multiple of sizeof(void*)), if malloc succeeds and the size of the array is below 2^64: newAlign constructs exactly len objects, in increasing order, consecutively from an address that is a multiple of the alignment, all in the block malloc returned and after the word before the array that holds the address of the block; whatever the user does to the objects, deleteAlign destroys exactly these objects, in decreasing order, and then frees exactly this block. (After a failure that it reports, newAlign constructs the objects all the same, at the null address; an overflow of len*sizeof(T) is not detected.)", "quantifier": "all sizes of objects, lengths, alignments, addresses returned by malloc, contents written by the user", "why_tests_cant": "the addresses are chosen by the system and there are 2^64 lengths", "anchors": ["align.h: Array::newAlign, Array::deleteAlign"]}
