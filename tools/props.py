# Generates properties.jsonl (the list is kept here so that entries are easy to edit).
import json
P=[]
def p(id,title,statement,quantifier,why,anchors):
    P.append(dict(id=id,title=title,statement=statement,quantifier=quantifier,why_tests_cant=why,anchors=anchors))
p("C01","ceilpow2 is the least power of two >= n","ceilpow2(n) returns the smallest power of two that is >= n for every 64-bit n with 1 <= n <= 2^63 (and 0 for n=0 and for every n > 2^63).","every 64-bit size_t value","2^64 inputs; the bit-smearing chain must be right at every bit position",["utils.h: ceilpow2"])
p("C02","ceilpow and pow","utils::pow(x,y) is x^y and ceilpow(p,n) terminates and returns the smallest power of p that is >= n, for every base p >= 2 and n >= 1 (no 64-bit overflow).","all bases, exponents and thresholds","unbounded domain; loop termination and minimality over all powers",["utils.h: pow, ceilpow"])
p("C03","nextfftsize is the least 7-smooth number >= m","nextfftsize(m) terminates and returns a number of the form 2^a 3^b 5^c 7^d that is >= m, and no smaller number of that form is >= m, for every m >= 1.","every m >= 1","minimality ranges over all 4-tuples of exponents for all m",["convolve.cc: nextfftsize"])
p("C04","nextpuresize / ispow2 / ispure","ispow2(m) holds iff m is a power of 2, ispure(m) iff m is a power of 2, 3, 5 or 7, and nextpuresize(m) is the least pure number >= m, for every m >= 1.","every m >= 1","iff over an unbounded domain",["convolve.cc: nextpuresize, ispow2, ispure"])
p("C05","Padding parameters always reach the requested size","For every L <= M, m >= 1: with the p, n, q computed from (L,M,m), p is the least number of m-blocks covering L, the padded length N=m*q is >= M, N is a multiple of the block length, and q=1 exactly when the padded length is a single block (m >= M); the constructor's 'Invalid parameters' exit can never fire.","all L, M, m and both centered/noncentered modes","all integers; the parity special-cases p=2 and centered even p",["convolve.cc: fftBase::parameters, fftBase::common","align.h: ceilquotient"])
p("C06","The residue loop visits every residue exactly once and terminates","For every valid (p,n,D), iterating r=0; r<R; r+=increment(r) terminates, nloops() counts its iterations, and the blocks processed over all iterations cover each of the n residues exactly once.","all n, D accepted by valid(), all iterations","number of iterations unbounded; partial first block D0 and conjugate pairing",["convolve.h: increment, residueBlocks, nloops, Dr, conjugates","convolve.cc: fftPad::init"])
p("C07","index(r,i) is a bijection onto the padded frequencies","Over all residue blocks r of the loop and all positions i < noutputs(r), index(r,i) takes every value in [0,N) exactly once.","all valid parameters, all r, all i","all sizes; a multiplier that uses indices relies on it",["convolve.h: fftBase::index, noutputs, blocksize"])
p("C08","forward computes the padded DFT","For every input f of length L, every valid noncentered parameter choice and every residue block r, forward(f,F,r,W) leaves in F[i] exactly the value at frequency index(r,i) of the DFT of f zero-padded to N=m*q (exact arithmetic), for every i < noutputs(r), and does not change f.","all inputs, sizes, parameter choices, residue blocks","infinitely many inputs and sizes; tests sample a few parameter combinations",["convolve.cc: fftPad::forwardExplicit, forward1, forward2, forwardInner and Many variants"])
p("C09","backward is the unnormalized inverse of forward","Running, over all residue blocks, forward then backward leaves N*f[j] for every j<L, whatever was previously in the accumulation array and the work buffers; hence normalization by 1/N is the identity.","all inputs, sizes, parameters, all prior buffer contents","all inputs and prior memory contents",["convolve.cc: fftPad::backward*","convolve.h: normalization"])
p("C10","convolve with multBinary is the N-periodic cyclic convolution; dealiased when M >= 2L-1","convolve(f) with A=2,B=1 and multBinary leaves in f[0][k], k<L, the sum of f0[i]*f1[j] over i+j congruent to k mod N; if M >= 2L-1 this is the linear convolution sum over i+j=k.","all inputs, L, M, and every m, D, in-place/out-of-place choice the optimizer may pick","the optimizer's choice is timing-dependent, so any valid parameter set may run",["convolve.cc: Convolution::convolveRaw, multBinary","convolve.h: Convolution::convolve, normalize, operate"])
p("C11","The result does not depend on the optimizer's choice","Any two valid parameter choices (m,D,inplace) whose padded lengths are both >= 2L-1 give the same convolution of the same inputs.","all pairs of parameter choices, all inputs","which algorithm runs depends on timing noise",["convolve.cc: OptBase::scan, check","convolve.h: Convolution"])
p("C12","Repeated calls are independent of history","A Convolution object may be reused: whatever sequence of convolve() calls was made before, and whatever the work buffers contain, the next call gives the same result as on a fresh object (zero padding in W is re-established).","all histories of calls on one object","unbounded call histories",["convolve.h: backwardPad, Pad, W0","convolve.cc: padSingle, padMany"])
p("C13","No out-of-bounds access with the documented buffer sizes","With f of inputLength*S, F of outputSize, W of workSizeW and the tables as allocated, every read and write made by forward/backward/convolve is inside its buffer.","all valid parameters, all residue blocks, all loop iterations","ASan only sees executed sizes",["convolve.h: outputSize, workSizeW, workSizeV","convolve.cc: initZetaqm, fftPad::init"])
p("C14","Parallel loops are race free and schedule independent","In each OpenMP loop of the transform routines distinct iterations touch disjoint data, so every interleaving of the threads' loads and stores ends in the same memory as the sequential loop.","all schedules/interleavings, all sizes, all thread counts","number of interleavings is exponential",["parallel.h: PARALLEL, PARALLELIF","convolve.cc: all PARALLELIF loops"])
p("C15","Only the first B inputs and the work arrays are modified","convolve(f) without overwrite leaves f[a] unchanged for B <= a < A, and never writes outside f[0..B), F, V, W.","all inputs, parameters and A, B","frame property over all memory",["convolve.cc: Convolution::convolveRaw"])
p("C16","The two-pass (loop2) buffer rotation preserves data","When nloops()==2 and A > B, the rotation of work buffers F/Fp computes the same as the generic residue loop: no transform is overwritten before it has been used and each output receives both residue blocks.","all A > B","all A,B; holds only if (A-B) divides B: for other A,B the code violates it",["convolve.h: Convolution::init (Fp), Convolution2::init","convolve.cc: convolveRaw loop2"])
p("C17","2D and 3D convolution reduce correctly to 1D","Convolution2::convolve (and Convolution3) computes the 2D (3D) cyclic convolution of period Nx by Ny (by Nz), hence the linear one when dealiased, for every combination of valid 1D parameters in the directions.","all inputs, sizes, parameter combinations","combinatorial explosion of parameter choices per direction",["convolve.h: Convolution2, Convolution3, subconvolution"])
p("C18","Stride gaps are never touched","With stride S > C, elements c in [C,S) of each row of f are neither modified nor influence the result.","all C, S, inputs","all strides and contents of gaps",["convolve.cc: *Many routines"])
p("C19","The optimizer terminates and returns valid parameters","scan() terminates for every L <= M and Application, and the (m,D,inplace) it selects either satisfies valid(...) or is the explicit fallback m=M, D=1; so the constructor never aborts on its own choice.","all L, M, Application settings, and all timing outcomes","timings are nondeterministic; loops over sizes unbounded",["convolve.cc: OptBase::scan, opt, optloop, check"])
p("C20","Running statistics are exact for every sample sequence","After any sequence of add(t): count, mean, min, max and sum are those of the sequence, varL+varH is the sum of squared deviations from the mean, and median() is the middle order statistic (mean of the two middle ones for even count).","all finite sequences of samples in any order","all orders; the two-heap invariant is history dependent",["statistics.h: statistics::add, median, mean, stdev"])
p("C21","HermitianSymmetrize enforces Hermitian symmetry","HermitianSymmetrizeX (XY) produces data satisfying f(-x,0)=conj f(x,0) (f(-x,-y,0)=conj f(x,y,0)), real at the origin, leaves the independent half unchanged, zeroes Nyquist rows when x0=Hx (y0=Hy), stays in bounds, and is idempotent.","all sizes, strides, data","all shapes incl. the Nyquist cases",["convolve.h: HermitianSymmetrizeX, HermitianSymmetrizeXY"])
p("C22","Multi-threaded batched FFTs partition the batch","The T-way split of M transforms used by mfft1d executes each of the M transforms exactly once, with the right input and output offsets, for every M and T.","all M, T with T <= M","all remainders R",["fftw++.h: fftwblock::init, Execute"])
p("C23","localdimension partitions the global dimension","Over ranks 0..size-1, the intervals [start,start+n) are disjoint, in order and cover [0,N) for every N and size >= 1; no rank's block is larger than ceil(N/size).","all N, size, rank","ranks with empty blocks appear only for specific N,size",["mpi/mpitranspose.h: localdimension","mpi/mpigroup.h: split"])
p("C24","Gather reassembles the distributed array","gatherx/gathery place every element of the distributed array at its global position on rank 0, for every N, size, with empty blocks skipped consistently by sender and receiver (no deadlock, no stray message).","all shapes, process counts","all process counts and message histories",["mpi/mpiutils.h: gatherx, gathery","mpi/mpitranspose.h: copyfromblock"])
p("C25","The all-to-all schedule is a consistent perfect timetable","fill1_comm_sched gives each process a permutation of all processes and at each step the pairing is symmetric: if at step k process p talks to q then q talks to p.","all process counts and ranks","all npes; basis of deadlock freedom",["mpi/mpitranspose.cc: fill1_comm_sched"])
p("C26","The distributed transpose moves every element to its place","localize0 (outphase) takes the n x M slabs to N x m slabs with the global matrix unchanged, for every N, M and number of processes, and localize1 is its inverse.","all N, M, L, process counts, message orders","all process counts/remainders; schedules",["mpi/mpitranspose.h: outphase0, outphase, inphase0, inpost, Ialltoallout, Ialltoallin"])
p("C27","Array indexing is in-bounds and injective","For array1..array3 (and offset Array1..3), valid multi-indices map injectively onto [0,size) and subarray views A[i][j][k] refer to the same element as A(i,j,k); out-of-range indices are rejected in checking mode.","all dimensions, indices, offsets","all shapes",["Array.h: array1, array2, array3, Array1, Array2"])
p("C28","Shift moves the Fourier origin to the centre","Shift multiplies element (i,j) by (-1)^i (3D: (-1)^(i+j)), is an involution, touches exactly nx*nyp (nx*ny*nzp) elements, and transforming after it rotates the spectrum by nx/2 (ny/2).","all even nx, ny, all nz, all data","all sizes and data",["fftw++.h: fftw::Shift"])
p("C29","fftNormalized of the opposite sign inverts fft","For fft1d and mfft1d of every size, stride and distance, transforming with sign s then fftNormalized with sign -s returns the original data exactly (exact arithmetic).","all sizes, strides, distances, data","all inputs",["fftw++.h: fftw::Normalize, fftNormalized, fft1d, Mfft1d"])
p("C30","SIMD complex helpers compute complex arithmetic","ZMULT, ZCMULT, ZMULTI, ZCMULTI, ZMULT2 and their X,Y precomputed forms compute z*w, conj(z)*w, i*z*w, i*conj(z)*w and z*w+conj(z)*v for all operands.","all operands","continuous domain",["cmult-sse2.h"])
p("C31","ComplexAlign(n,size) returns disjoint aligned buffers","The n returned buffers lie inside the one allocation, are pairwise disjoint, and each starts at a multiple of ALIGNMENT Complex words from the base; align(n) >= n.","all n, size, power-of-two alignments","all sizes",["align.h: ComplexAlign, doubleAlign, align"])
p("C32","Correlation multiplier","convolve with multcorrelation gives sum over i-j congruent to k mod N of f0[i]*conj(f1[j]).","all inputs and parameters","all inputs and parameters",["convolve.cc: multcorrelation"])
p("C33","A user-supplied work array W is honoured","Passing W of size workSizeW() to the Convolution constructor gives the same results as letting it allocate W.","all out-of-place configurations","holds for no out-of-place configuration: the constructor discards the pointer (violated by the code)",["convolve.h: Convolution::init (W=allocateW ? ... : NULL)"])
p("C34","Plan-time lookup table ordering is a strict total order","The comparison used as key order of the thread-count tables is irreflexive, transitive and total (two keys are equivalent only if equal), so a stored thread count is returned for exactly the key it was stored under.","all keys and store/lookup histories","all histories",["fftw++.h: keyless, Threadtable"])
p("C35","In-place overwrite variants agree with the general algorithm","When the overwrite condition holds, convolve (which transforms inside the input arrays) leaves the same first B results as the non-overwrite algorithm.","all inputs, m, C, S with L=p*m, n=p+1","all inputs and sizes",["convolve.cc: forward1All, forward2All, backward1All, backward2All and Many variants"])
p("C36","Centered transforms compute the padded DFT about the centre","For the centered class, forward gives the DFT in which element j stands for position j-floor(L/2), and backward after forward gives N*f.","all inputs, sizes, parameters","all inputs and sizes",["convolve.cc: fftPadCentered::*"])
p("C37","Hermitian transforms","For Hermitian half-data, forward yields the (real) values of the centered padded DFT and backward recovers N*f.","all Hermitian inputs, sizes","all inputs and sizes",["convolve.cc: fftPadHermitian::*"])
p("C38","Real transforms","For real data, forward yields the nonredundant half of the padded DFT, and backward recovers N*f.","all real inputs, sizes","all inputs and sizes",["convolve.cc: fftPadReal::*"])
p("C39","MPIgroup uses a feasible number of processes","For every X>0 (and Y>0) and communicator size, the reduced number of active processes is between 1 and the communicator size and every active rank owns a nonempty block in a slab decomposition.","all X, Y, sizes","all process counts",["mpi/mpigroup.h: MPIgroup"])
p("C40","Thread division","multithread(n) leaves threads*innerthreads equal to the previous threads and never runs both levels in parallel.","all n, thread counts","all values",["fftw++.h: ThreadBase::multithread"])
import os
open(os.path.join(os.path.dirname(__file__),"..","properties.jsonl"),"w").write("".join(json.dumps(x)+"\n" for x in P))
