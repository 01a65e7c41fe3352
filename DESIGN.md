# Formal model of dealias/fftwpp in Lean 4 — design

(Started before the proofs; updated as the model grows.  `properties.jsonl` lists the
properties, `MANIFEST.json` maps them to theorems, `seeded/LOG.jsonl` logs the mutation runs.)

## 1. Approach

The library is modelled function by function.  Every Lean definition of the model carries a comment
with the file and lines it models.  Theorems that state properties live in `Verif/Props/*.lean`, apart from
the model (`Verif/Model/*.lean`), the specification (`Verif/Spec/*.lean`) and helper lemmas
(`Verif/Proof/*.lean`).

* **Values.** `Complex` (double re,im) is modelled by Mathlib's `ℂ` (and `double` by `ℝ`/`ℚ`):
  arithmetic is exact.  `expi(2πx)` is `e x = exp(2πix)`.  Rounding is not modelled.
* **Memory.** `Mem` = finite-size buffers (`size : ℕ → ℕ`, contents `val`).  A pointer is (buffer, integer
  offset) because the code forms pointers such as `W-m`.  Every load/store is bounds checked: out of bounds
  is the outcome `Err.ub`.  Process exits of the library (`exit(1)`) are `Err.exit`.
* **Parallel loops.** `PARALLELIF(...)` loops are modelled by `par l body`: the iterations are tiny programs
  (`Body`: loads/stores), run in the serial order, and *a data race between two iterations is
  `Err.ub`*.  A separate meta-theorem proves that a race-free loop has the same final memory for **every
  interleaving** of the individual loads and stores of its iterations.  Nested loops `for t … for s … for c`
  are flattened to one index set (stronger: independence is required of all index tuples).
* **FFTW.** A plan execution is the exact strided DFT (its documented contract), with the in-place/out-of-place check of
  `fftw::Setout`.  FFTW itself, its planner and its threads are not modelled.
* **Sizes.** `size_t` arithmetic is `ℕ` unless the property is about bits (C01 uses `BitVec 64`), i.e. no
  overflow of sizes is assumed for the others.

The layers: (1) integer parameters and `index`; (2) transform routines in the memory model, each proved to
satisfy the same specification "F[i] = padded DFT at frequency index(r,i)" / "f accumulates the adjoint";
(3) the drivers `Convolution::convolveRaw`, `Convolution2`, `Convolution3`, proved against that specification;
(4) the mathematical specification (cyclic and linear convolution).
Separate small models: utilities, optimizer, statistics, Hermitian symmetrization, shift,
batched-FFT threading, MPI partition/gather/schedule/transpose, Array.h, alignment.

## 2. Plan per property

| id | model | proof |
|----|-------|-------|
| C01 | `ceilpow2` on `BitVec 64` and its ℕ reading | bit-level lemma: smearing sets all lower bits; bounds give minimality |
| C02 | `pow`, `ceilpow` as well-founded loops on ℕ | loop invariants, monotonicity of powers |
| C03 | `nextfftsize` nested loops as recursions | loop invariant "N = min of visited candidates"; every smaller smooth number ≥ m is visited |
| C04 | `ispow2` (bitwise and), `ispure`, `nextpuresize` | from C01/C02 |
| C05 | `parameters`, `common` | integer arithmetic |
| C06 | `increment`, `residueBlocks`, `nloops` | well-founded loop; partition lemma |
| C07 | `index` | explicit inverse |
| C08,C09 | all `fftPad` routines in the memory model | per-routine loop lemmas + root-of-unity algebra |
| C10,C11,C12,C15,C32 | `Convolution` object and `convolveRaw`, multipliers | refinement against C08/C09 specs, invariant over call histories |
| C13 | all accesses bounds checked in the model | a run that returns `ok` made no bad access; theorems show it returns `ok` |
| C14 | `par` + interleaving semantics | general DRF theorem; every loop of the model is run through `par` |
| C16 | `Fp` rotation | buffer-level model; proof if (A-B) ∣ B, counterexample otherwise |
| C17 | `Convolution2/3` | composition of 1D specs |
| C18 | frame clauses of the Many routines | part of C08/C09 specs |
| C19 | `scan/opt/optloop/check` with an arbitrary timing oracle | invariants, termination measure |
| C20 | `statistics` with two heaps as sorted lists/multisets over an ordered field | invariant over op list |
| C21 | `HermitianSymmetrizeX/XY` | loops in the memory model |
| C22 | `fftwblock::Execute` split | arithmetic partition |
| C23,C24,C39 | `localdimension`, `split`, gather, `MPIgroup` | arithmetic; message-level model |
| C25 | `fill1_comm_sched` | modular arithmetic, all npes |
| C26 | transposes as index maps | message-level model of the basic (a=1) algorithm first |
| C27 | `Array.h` index maps | arithmetic |
| C28,C29 | `Shift`, `Normalize` | loops + DFT algebra |
| C30 | `Vec` operations | `Complex.ext` |
| C31 | `ComplexAlign`, `align` | arithmetic |
| C33 | constructor of `Convolution` with user W | refutation with witness |
| C34 | `keyless` | order axioms; map model |
| C35 | overwrite routines | same specification as C10 |
| C36 | all `fftPadCentered` routines (`Model/Centered.lean`) | as C08/C09, residues `n*t+σ` with σ centered (`Proof/C*.lean`) |
| C37 | all `fftPadHermitian` routines (`Model/Herm.lean`), FFTW's real transforms (`RPlan`) | folding identities (`Proof/HMath.lean`), loops as in C36, inversion of `hdft` |
| C38 | all `fftPadReal` routines (`Model/Real.lean`); loops over single doubles run in the memory seen as an array of doubles (`Mem.split`) | frequencies of the outputs and weights in `Spec/Real.lean`; loops `Proof/R*.lean`; even periodic sums over the residue loop (`RSum`, `RBlock`) |
| C42 | `Tr`: class chosen per direction, drivers of C10/C17 | the driver proofs are generic in the interface `FftBase` and the origin |
| C43 | `Herm.base` (the interface of `fftPadHermitian` used by the drivers), `realMultBinary`, the driver of C12 | the driver proofs are redone over an abstract `View` (how an object reads data, what a block of transforms means, on which data the results are specified; `Proof/ADrv*.lean`, `AConv.lean`); `Proof/HView.lean` proves that a Hermitian object is one; convolution theorem for Hermitian sequences in `HConvMath.lean` |
| C44, C45 | `Conv2`, `Conv3` (C17) with a Hermitian object as inner transform | `Proof/Gen2.lean`, `Gen3.lean`: the proofs about `Convolution2`/`Convolution3` over any inner convolution specified on a domain of inputs; `HGen.lean`: a Hermitian `Convolution` is one (domain: rows whose element 0 is real); `HConvMath2/3.lean`: convolution theorems; `C44_symmetrized`/`C45_symmetrized` link the condition on the inputs to C21 |
| C46 | `Re.base` (interface of `fftPadReal`), the routines of the driver that copy and scale doubles (`Model/RealDriver.lean`) | the driver proofs over a `View` (as C43) with values read as doubles; `Proof/RView.lean`, `ROper.lean`, `RConv.lean`; only half of the frequencies are computed, so the multiplier must commute with conjugation (`ConjOp`) and must not depend on the frequency (`index()` is inherited from the complex class and means nothing here) |
| C47 | `Conv2.convolveD` and the parts of `Convolution2` that copy and scale doubles (`Model/RealDriver2.lean`) over `Re.base` in x and `Fft.base` in y | the outer driver over a `View` (`Proof/AOuter.lean`), the rows of real data and their conjugate rows (`Proof/ROuter.lean`, `ROuter2.lean`: only half of the rows are computed; the inner convolution of the conjugate of a row is the conjugate); `Props/RealConv2.lean`. Not covered: the private copy `V` of `fftPadReal` (in place, p > 2, Sx > Ly), a multiplier depending on the frequency |
| C48 | `Conv3.convolveD` (`Model/RealDriver2.lean`), `contiguous3` with `wordSize()=1` | the 2D inner convolution acts on all `Ly*Sy` columns, leaving the gaps unchanged (`physRow`, `Inner.phys` in `Proof/ROuter3.lean`), and commutes with conjugation (`val2_conj`); then as C47; `Props/RealConv3.lean`. Not covered: as C47 |
| C49 | the programs of the processes (`Model/MpiFft.lean`), in the message-passing model of C26; a local transform loads its input words and then stores its output words | supersteps: local phase, `localize0`/`localize1` (C26 with a continuation), local phase (`Proof/MpiFft.lean`, `MpiFft2.lean`); by confluence (C24) one run decides all runs; Fourier inversion by orthogonality |
| C50 | `rcfft2dMPI` (`Model/MpiRcfft.lean`), words are doubles, `mpitranspose<Complex>` with blocks of 2 words; r2c/c2r plans with FFTW's contract (c2r destroys its input: arbitrary `junk`, output specified only for half spectra of real data) | as C49; the Hermitian symmetry of the lines after the x transform makes the c2r input valid (`Proof/RDft2.lean`, `Proof/MpiRcfft2.lean`) |
| C51 | `fft3dMPI` (`Model/MpiFft3.lean`) on the two communicators that `MPI_Comm_split` makes from the active processes (`commProc`, `Model/Comm.lean`: a program run on a communicator), slabs (2D transforms of planes) or pencils | an embedding of the runs on a communicator into the runs of all processes (`Proof/Comm.lean`): the groups run one after the other in one schedule, and all schedules agree (C26's confluence); `Proof/MpiGroup.lean`: the groups are the rows and columns of a grid; then the transposes of C26 on every row/column (`Proof/Grid.lean`) and local transforms |
| C52 | `rcfft3dMPI` (`Model/MpiRcfft3.lean`): real-to-complex transforms in z, then the pencils or slabs of C51 with two doubles per complex word; `Shift`, `deNyquist`, `Normalize` | `Proof/MpiRcfft3*.lean`: the transposes of C51 for words of two doubles, the local transforms of C50 line by line, Hermitian symmetry carried through the transforms in x and y (`Proof/RDft3.lean`) |
| C53 | `Convolution2MPI` (`Model/MpiConv.lean`): the driver of C17 with `forward`/`backward` that transpose, the computations of a process between communications are the commands of the sequential model (`Op.comp`) on its memory | `Proof/MpiConv*.lean`: `NOk` (a program of all processes, as supersteps, takes memories to memories in every run, `Proof/MpiConv.lean`), the passes of the driver in the distributed data (`Rows`: which process holds which part of a block), C26's transposes between; the inner convolution is abstract (`Inner`, `Proof/Gen2.lean`). Restrictions: `D=1`, no overwriting and contiguous columns in x (as in the test programs; see findings 31-36); for multipliers that depend on the x frequency see finding 31 |
| C54 | the same with a Hermitian transform in y; `HermitianSymmetrizeX(d,f)` (`hermitianSymmetrizeXd`) | `DFits` of C53 with the Hermitian inner convolution of C44 (domain: rows whose element 0 is real); `C54_symmetrized` from C21 |
| C55 | `Convolution3MPI`, slab decomposition (`Model/MpiConv3.lean`): the driver of the sequential `Convolution3` with `forward`/`backward` that transpose planes, inner convolutions are sequential `Convolution2` objects of the model of C17 | `Proof/MpiSlab*.lean`: as C53 with words in planes (`wd`, `st`), the inner convolution is `Conv2.GFits` of any domain; `C55_history`, `C55_convolve` in `Props/MpiConv3.lean` |
| C56 | `Convolution3MPI`, slab decomposition, with the Hermitian transform of C22 in `z` (`mpi/tests/hybridconvh3.cc`) | `Props/MpiConvH3.lean`: the engine of C55 on the inner convolution of C44 (`Conv2.gfitsH`): `C56_history`, `C56_convolve` |
| C57 | `HermitianSymmetrizeXY(split3&,f,u)`, mpi/mpiconvolve.cc (`Model/MpiSymm.lean`), slabs: table, exchange, one process | `Proof/MpiSymm*.lean`: each process's program equals a loop over the distance `t` of a row from the origin (`exchange_rows`: in round `t` one row is sent, or reflected in place), so that the rounds can be composed as supersteps; `C57_symmetrized`, `C57_table` |
| C58 | `directconv*` of tests/direct.h, tests/direct.cc (`Model/Direct.lean`): every loop, exact complex numbers, `T=Complex`, `int` as integers | `Proof/Direct*.lean`: a loop that accumulates is a sum (`Body.Gives`), sums over index pairs are reindexed to sums over the pairs with a given sum (`zsum_pairs`); `C58_*`; the comparison theorems `C58_hybrid*` combine them with C10, C17, C43-C45, C47, C48 |
| C59 | the wrapper classes, the C functions and the Python class `HConvolution` (`Model/Wrapper.lean`), on top of the optimizer of C19 and the convolutions of C10, C17, C43-C45; the timings are arbitrary sequences (`Clock`) | `C19_constructor*` give the plan, the `C10`/`C17`/`C43`-`C45` theorems the convolution; histories that symmetrize are turned into histories of writes (`Reach.symm2`, `Proof/Wrapper2.lean`, `Proof/Wrapper3.lean`); `C59_*` |
| C60 | the six classes as one record `RFft` (`Model/Rcfft.lean`): memory words are doubles; the plan is FFTW's contract (`r2c`, `c2r`, unspecified words arbitrary), the shifts, the normalization and `deNyquist` are the loops of the code; absent sizes are 1 | signs of the shift as a translation of the origin (`rdft3_alt`), inversion of the DFT, `C28`'s loop lemmas; `C60_*` |
| C61 | `Mrcfft1d`, `Mcrfft1d` and the wrappers with their contiguous special case (`Model/RBatch.lean`): the batched plan is FFTW's contract, the blocks of the threads run in any order, the template `Normalize` is a loop | invariant over the blocks executed so far (`blocks_ok`), with disjointness of the words of different transforms derived from the test in `init`; `C60` for the special case; `C61_*` |
| C62 | `fft1d`, `fft2d`, `fft3d` and the wrappers of `fftw` (`Model/Cfft.lean`), all as transforms of an `nx×ny×nz` array; the plan is FFTW's contract | orthogonality of roots of unity in each dimension (`Net.dft3_inv`), `normalizeAll_ok`; `C62_*` |
| C63 | `Complex.h` (`Model/ComplexClass.lean`): compound assignments on a store of objects, reads and writes of members one by one; libm functions are the real functions | computation in `ℂ`; `Complex.cpow` for `pow` and `sqrt`; `C63_*` |
| C64 | both halves of `cmult-sse2.h` on bits (`Model/Sse.lean`), the arithmetic of doubles a parameter | a register is a pair of doubles; `C64_*` |
| C65 | `posix_memalign0`, `free0` (`Model/Align.lean`): addresses are `BitVec 64`, `malloc` is an arbitrary function, the memory is the words that hold pointers | the mask is a rounding down to a multiple of `2^k` (`mask_bits`), then arithmetic; `C65_*` |
| C66 | `multcorrelation` in `Convolution2`, `Convolution3`; specification `Spec/Corr.lean` | the transforms of C17, C47, C48 applied to this multiplier, then orthogonality of roots of unity (`Proof/CorrMath.lean`); `C66_*` |
| C67 | `newAlign`, `deleteAlign` (`Model/NewAlign.lean`): the list of constructions, destructions and calls of `free`, on the model of C65 | the loops are lists (induction), addresses by C65 and arithmetic; `C67_*` |
| C40 | `multithread` | case split |

## 3. What is modelled, what is not

| source | modelled | not modelled |
|--------|----------|--------------|
| `utils.h` | `ceilpow2`, `ispow2`, `ispure`, `pow`, `ceilpow`, `nextfftsize`, `nextpuresize`, `ceilquotient` | rest |
| `Complex.h` | all but the members below | stream I/O, `isfinite` |
| `cmult-sse2.h` | the operations used in the inner loops (`ZMULT`, `ZMULTC`, `CONJ`, ...) with exact arithmetic, both builds on bits | |
| `convolve.cc` `fftPad` | constructor (parameters, tables, plan shapes), all Explicit/1/2/Inner/All routines, `Many` variants, `forward/backward/pad/index/residueBlocks/Dr/increment` | FFTW planning, timing |
| `convolve.cc` `fftPadCentered` | constructor (incl. `ZetaShift`), all Explicit(Fast/Slow)/2/Inner/2All/InnerAll routines and their `Many` variants | FFTW planning, timing |
| `convolve.cc` `fftPadHermitian` | constructor, all Explicit/2/Inner routines and `Many` variants, `inputLength/blocksize/noutputs/span/workSizeW` | FFTW planning, timing |
| `convolve.cc` `fftPadReal` | constructor, `forward*`, `backward*`, `pad*`, `outputSize`, `increment`, `blocksize`, `noutputs`; `Convolution` (`Model/RealDriver.lean`) and `Convolution2/3` (`Model/RealDriver2.lean`) of real data | in the convolutions, the private copy `V` (in place, p > 2, S > C) |
| `convolve.cc` `OptBase` | `optloop`, `opt`, `check`, `scan` with an arbitrary timing oracle | the clock; `size_t` overflow of sizes |
| `convolve.cc` `Convolution`, `Convolution2`, `Convolution3` | constructor (buffers), `forward`, `operate`, `backward`, `pad`, `convolveRaw` (1-pass, 2-pass, overwriting branches), `subconvolution`, `multBinary`, `multcorrelation` | other user multipliers are an arbitrary pointwise function satisfying `MultSpec` |
| `fftw++.h` | thread selection, `fftwblock::Execute`, `Shift`, `Normalize`, key order, alignment of buffers, `fft1d`-`fft3d`, `rcfft1d`-`rcfft3d`, `crfft1d`-`crfft3d`, `mrcfft1d`, `mcrfft1d`, `Doubles` | wisdom, planning |
| `align.h` | `ceilquotient`, `ComplexAlign(n,size)`, `align`, `posix_memalign0`, `free0`, `newAlign`, `deleteAlign` | constructors that throw |
| `Array.h` | index maps of the ten classes, assignment, ownership/`state` flags | stream I/O |
| `statistics.h` | all | |
| `HermitianSymmetrize` | X, XY | |
| `tests/direct.h`, `tests/direct.cc` | all classes and members, `T=Complex` | other `T`; `int` wrap-around; rounding |
| `wrappers/HybridConvolution.h`, `wrappers/cfftw++.cc`, `wrappers/fftwpp.py` | the constructors and `convolve` in 1D, 2D, 3D, `HConvolution` of Python (`Convolution` of Python calls the C functions directly) | destructors, `get/set_fftwpp_maxthreads`, the Fortran interface, conversion and allocation by ctypes and numpy |
| `mpi/mpifftw++.h` | `fft2dMPI`, `rcfft2dMPI`, `fft3dMPI`, `rcfft3dMPI` | the nonblocking interface with user code between `iForward` and `ForwardWait` |
| `mpi/` | `localdimension`, `split`, `MPIgroup`, gather functions, all-to-all schedule, `mpitranspose` (all algorithms), `Convolution2MPI`, `Convolution3MPI` with slabs, `HermitianSymmetrizeX(d,f)`, `HermitianSymmetrizeXY(d,f,u)` with slabs | `Convolution3MPI` with pencils, user code between `ilocalize` and `wait` |

Simplifications, also noted at the definitions:

* exact arithmetic; sizes in ℕ except in the bit-level utilities (`size_t` modulo 2^64 there);
* nested `for` loops inside one PARALLELIF are flattened to one index set;
* one buffer per allocation, allocations are pointers supplied by the environment (fresh, distinct, large enough);
  inputs of the overwriting convolution lie in distinct buffers; `V` is allocated at construction instead of lazily;
* FFTW's complex-to-real transforms destroy their input and leave unspecified output if the half spectrum is not one of real data: those
  words are arbitrary functions of the state (`Junk`), over which the theorems quantify;
* FFTW: an out-of-place complex plan preserves its input (the code plans with `FFTW_PRESERVE_INPUT`-compatible flags); a batched plan acts as
  a simultaneous map; a rank-0 plan is a simultaneous permutation;
* `Convolution2/3`: the iterations of the outer parallel loop over sub-convolutions are atomic, in an arbitrary order and with an arbitrary
  assignment to threads; the transform of `Ly` (or `Ly*Lz`) columns is the model of `C=Ly`; rows of the strided case as in `Proof/Strided`;
* MPI (`Model/Net.lean`): point-to-point messages match in FIFO order per (source, destination, context), sends are eager or rendezvous according
  to an arbitrary oracle, a nonblocking send is a snapshot at the post and a receive is filled at the wait (justified because the programs do not
  touch the buffers in between, which the model checks), `MPI_Ialltoall` is its point-to-point expansion in its own context;
* the computations of a process between two MPI calls are one step of the process (`Op.comp`), a command of the sequential model on its private
  memory; the nonblocking transposes of the overlapping mode of `Convolution2MPI` are completed at once;
* `std::map` keyed by `keyless` needs a strict weak order, which C34 proves; `std::priority_queue` is a sorted multiset;
* optimizer: every timing is an arbitrary positive value of an oracle; the timing routine is assumed to return.

## 4. Findings: places where the code does not satisfy the property for all inputs

Where a theorem is named, the failure is proved of the model with a concrete witness.

1. `Convolution::convolveRaw` with two passes (`loop2`) rotates `Fp` correctly only when (A-B) divides B; A=3, B=1 fails
   (`C16_loop2_refuted`).  In `Convolution2/3` the rotation is right only if A-B=1.
2. The constructors discard a user-supplied `W` (`C33_user_W_refuted`).
3. `OptBase::check` calls `mlist.back()` on an empty list on the first valid case.
4. Constructor: `if(Explicit) M=m;` assigns the parameter, not the member (harmless).
5. `mpitranspose::init`: `sched1=sched2=sched` before `sched` is assigned (harmless).
6. `Zetaqm=Zetaqm0-m` forms an out-of-range pointer (modelled as an offset).
7. Overwriting with p=2: the last block has residue -1 but `index` reports q*i+2 (`C35_index_refuted`).
8. `fftPad::valid` accepts D=0 when S==1 (division by zero); L=0 or m=0 divides by zero.
9. `tests/hybrid.cc` does not re-pad W0 between backward and the next forward; C09 pads in each iteration.
10. `ceilpow` loops forever or overflows for n > 2^32.
11. `fftwblock::init`: the split test is vacuous for in-place complex transforms (`C22_inplace_transposed_refuted`).
12. `fftw::Normalize` overruns the output if the input layout is longer (`C29_normalize_overrun_refuted`), and scales gap words.
13. `Convolution::operate` sets `indices->offset=stride*d` with `stride=S*noutputs(0)`: wrong for a frequency-dependent multiplier when D0≠1.
14. The VLA `G[A]` in `operate`/`convolveRaw(f,offset)` is too short when B > A.
15. `Convolution2::subconvolution` loops over `blocksize` columns only; with Sx=1 and D>1 sub-blocks would be missed.
16. `Indices::r` uninitialised when q==1 (harmless).
17. `MPIgroup` with X=0 and `mpitranspose` with N=0 or M=0 divide by zero.
18. `optloop` takes `app.m` by reference: a forced m with odd p in the centered classes modifies the user's `Application`.
19. `Array.h`: `C27_assign4_refuted`, `C27_unsized_refuted`, `C27_identity_refuted`, `C41_swap_leak_refuted`, `C41_hold_leak_refuted`,
    `C41_set_mismatch_refuted`, `C41_realloc_mismatch_refuted`, `C41_count_refuted`; also array5(...,T*v0) passes nv0 for v0, array4/5 `operator[]` report the wrong
    dimension, NDEBUG `Allocate` leaks, `deleteAlign(v,0)` loops from SIZE_MAX, `Reallocate(T*&A,n,o)` frees a shifted pointer,
    `operator=` from a view of itself reads freed storage.
20. `mpitranspose` compact mode with in≠out exits (`C26_compact_refuted`).
21. `mpitranspose`: when `size` shrinks to 1 with several processes, `deallocate()` returns early and leaks.
22. `scan` with Explicit=true times `nextfftsize(M)` once per list entry, never the other explicit sizes it counted.
23. `fftPadCentered::forwardInnerMany`: PARALLELIF condition has reversed operands (affects threading only).
24. `fft2dMPI::Forward(f)` and `Backward(f)` (documented usage, `out` defaulted) pass the null pointer on to `ForwardWait`/`BackwardWait`
    (`C49_default_out_refuted`); the same holds for the other distributed classes.
25. Out-of-place `fft2dMPI::Backward` transposes its input array in place on processes holding a power-of-two number of columns
    (`C49_backward_input_refuted`).
26. `rcfft2dMPI::deNyquist` writes to `f[(i+1)*dc.y-1]` = `f[4294967295]` on a process without columns for which `dc.y0 == dc.Y` (even `Y`; e.g.
    `Y=4` on 4 processes, all active after `MPIgroup(comm,4)`) (`C50_deNyquist_refuted`).
27. `rcfft2dMPI::Backward0(g)` with the defaulted output passes the null pointer to `Shift` (`C50_default_out_refuted`).
28. `fft3dMPI::Forward(f)` with the defaulted output passes the null pointer to `ForwardWait0` (pencils) or `ForwardWait1` (slabs): the `Setout`
    inside `iForward` changes only its own copy of the pointer (`C51_default_out_refuted`).
29. `rcfft3dMPI`: the same for `Forward(double *)` (`C52_default_out_refuted`), and `Backward0(g)` passes the null pointer to `Shift`
    (`C52_backward0_default_out_refuted`).
30. `rcfft3dMPI::deNyquist` writes to `f[4294967295]` on a process that holds rows but no plane and starts exactly at plane `Z/2+1`, for example
    `X=2`, `Y=Z=4` on 8 processes (`C52_deNyquist_refuted`; compare `C50_deNyquist_refuted`).
31. `Convolution2MPI`: the multiplier is told the x frequency of local row `i` as `fftx->index(rx,i)`, but that row is global row `x0+i` of the block: on
    every process but the first the index is wrong (`C53_frequency_refuted`; hence `κ` in C53, C54; the multipliers of the library ignore it).
32. `Convolution2MPI` with overwriting in x: `localize1` of a block of the user's array writes `x*Y` words, which can exceed the `X*y` words of
    the block (`X=3`, `Y=4`, two processes: 8 > 6), and for `p=1` the array itself as allocated by mpi/tests/hybridconv2.cc (`Lx*d.y` words): an
    out-of-bounds write.  C53 therefore requires `overwrite=false` (read from the source, not proved as a refutation).
33. `Convolution2MPI` constructs the transpose only if `d.y < d.Y` on this process; if `Y=1` and there are two or more processes, one process
    constructs it and communicates and the others do not: it waits for ever (C53 requires a column on every process).
34. `Convolution2MPI` allocates its `F` before the base class constructor's `init`, which resets `allocateF`: the array is never freed.
35. With `D > 1` requested, a process with one column (`C=1`) and one with more may choose different `D`, hence different `X=l*D`: the processes
    disagree on the size of the transpose (C53 requires `D=1`).
36. mpi/mpiconvolve.h:125, 243 use the global variable `C` of tests/options.cc (declared in utils.h) as the number of pending transposes:
    programs that do not link the test options do not link, and `C=0` divides by zero.
37. mpi/mpiconvolve.cc:37, 66: with pencils the processes with `z0 != 0` return before the Nyquist planes are zeroed (lines 118-138), so that for even `X` or `Y` the
    result differs from that of a single process (C57 is stated for slabs, where `z0 = 0` in every process).
38. tests/direct.cc:21-23, 60-63: `directconvh2` and `directconvh3` constructed with strides of the user and called with `symmetrize=true` call `HermitianSymmetrizeX`/`XY`
    without the strides, which then rewrite words at the addresses of a dense array (C58 is stated for the default strides when symmetrizing).
39. wrappers/HybridConvolution.h:63-69, 95-102 with `Ly=1` (stored words of the last axis: `C=S=1` of `fftx`): the optimizer may choose `D>1` for `fftx`, and `Convolution2::subconvolution`
    then visits only `blocksize(rx)` of the `D*blocksize(rx)` rows (finding 15), so that the result is wrong; hence `2 ≤ Ly` in C59.
40. fftw++.h:366-371, 351-357: `fftNormalized(Complex *in,Complex *out)` of an out-of-place `crfft1d`/`crfft2d`/`crfft3d` normalizes `doubles/2` complex numbers, so with an odd number of
    values the last one is not divided (`C60_complexOverload_refuted`); the class comments say that the output is "stored as a Complex array".
41. fftw++.h:613-615: the test for splitting an in-place batch of real transforms among threads does not compare the distances of the vectors and of the spectra, so for unequal ones a thread
    may overwrite the input of another one (`C61_inplace_split_refuted`).
42. fftw++.h:96-113, 978, 1076: `Doubles` uses a distance 0 as such, while the plan uses the default instead: an object constructed without arrays plans on an array that is too small
    (`C61_scratch_default_refuted`).
43. Complex.h:246-249, 302-319: `arg` is 0 for negative real numbers (not π), so `pow(x,u)` is `|x|^u` for them, e.g. `pow(Complex(-1),3)` is 1
    (`C63_arg_refuted`, `C63_pow_refuted`).
44. align.h:39-43: without `posix_memalign`, the alignment 0 passes the test and gives the null pointer (after writing below address 0), and `size+alignment` may overflow
    (`C65_zero_refuted`, `C65_overflow_refuted`).
45. align.h:59-74: after reporting an invalid alignment or a failure of the allocation, `newAlign` constructs the `len` objects at the null address;
    `len*sizeof(T)` may overflow (`C67_failure_refuted`, `C67_overflow_refuted`).

## 5. Trusted base

Lean 4.33.0 kernel; Mathlib definitions of ℂ, ℝ, exp, sums; axioms `propext`, `Classical.choice`,
`Quot.sound` only (`vcheck` prints them).  The reading of the C++ source by the author of the model (no code is run), the
contracts of FFTW, MPI, OpenMP and the standard library listed in section 3.
