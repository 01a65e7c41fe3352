{
 "claims": [
  {
   "property": "C01",
   "status": "proved",
   "theorems": [
    "Fftwpp.Utils.C01_ceilpow2",
    "Fftwpp.Utils.C01_ceilpow2_wraps"
   ],
   "note": "size_t arithmetic mod 2^64; returns 0 for n=0 and n>2^63"
  },
  {
   "property": "C02",
   "status": "proved",
   "theorems": [
    "Fftwpp.Utils.C02_pow",
    "Fftwpp.Utils.C02_ceilpow",
    "Fftwpp.Utils.C02_ceilpow_diverges"
   ],
   "note": "ceilpow for n <= 2^32; for larger n the C++ loop can run forever (proved for p=2, n=2^32+1)"
  },
  {
   "property": "C03",
   "status": "proved",
   "theorems": [
    "Fftwpp.Utils.C03_nextfftsize"
   ],
   "note": "m <= 2^61 (beyond, the products in the heap may overflow)"
  },
  {
   "property": "C04",
   "status": "proved",
   "theorems": [
    "Fftwpp.Utils.C04_ispow2",
    "Fftwpp.Utils.C04_ispure",
    "Fftwpp.Utils.C04_nextpuresize"
   ],
   "note": "ispure, nextpuresize for m <= 2^32 (see C02)"
  },
  {
   "property": "C05",
   "status": "proved",
   "theorems": [
    "Fftwpp.C05_parameters",
    "Fftwpp.C05_constructor_exit",
    "Fftwpp.C05_D_zero_is_ub"
   ],
   "note": ""
  },
  {
   "property": "C06",
   "status": "proved",
   "theorems": [
    "Fftwpp.Fft.C06_residue_loop"
   ],
   "note": ""
  },
  {
   "property": "C07",
   "status": "proved",
   "theorems": [
    "Fftwpp.Fft.C07_index_bijective"
   ],
   "note": ""
  },
  {
   "property": "C08",
   "status": "proved",
   "theorems": [
    "Fftwpp.Fft.C08_forward"
   ],
   "note": "every noncentered non-overwriting routine, all C, S, L, M, m, D"
  },
  {
   "property": "C09",
   "status": "proved",
   "theorems": [
    "Fftwpp.Fft.C09_roundtrip",
    "Fftwpp.Fft.C09_backward_block"
   ],
   "note": ""
  },
  {
   "property": "C10",
   "status": "proved",
   "theorems": [
    "Fftwpp.C10_convolve"
   ],
   "note": "noncentered complex 1D, D0=1 or frequency-independent multiplier; overwriting and non-overwriting"
  },
  {
   "property": "C11",
   "status": "proved",
   "theorems": [
    "Fftwpp.C11_choice"
   ],
   "note": ""
  },
  {
   "property": "C12",
   "status": "proved",
   "theorems": [
    "Fftwpp.C12_history"
   ],
   "note": ""
  },
  {
   "property": "C13",
   "status": "proved",
   "theorems": [
    "Fftwpp.C12_history",
    "Fftwpp.Fft.C08_forward",
    "Fftwpp.Fft.C09_backward_block"
   ],
   "note": "in the memory model an out-of-bounds access is UB, and the theorems state that the run ends normally"
  },
  {
   "property": "C14",
   "status": "proved",
   "theorems": [
    "Fftwpp.C14_interleaving",
    "Fftwpp.C14_race_is_ub",
    "Fftwpp.Fft.C08_forward",
    "Fftwpp.Fft.C09_backward_block",
    "Fftwpp.C12_history"
   ],
   "note": "race-free loops have the same result under every interleaving; a racy loop is UB in the model, so the theorems that the runs end normally include race freedom"
  },
  {
   "property": "C15",
   "status": "proved",
   "theorems": [
    "Fftwpp.C12_history"
   ],
   "note": "frame clauses of the theorem"
  },
  {
   "property": "C16",
   "status": "proved",
   "theorems": [
    "Fftwpp.C16_loop2",
    "Fftwpp.C16_loop2_refuted"
   ],
   "note": "correct when (A-B) divides B; refuted otherwise (A=3,B=1)"
  },
  {
   "property": "C17",
   "status": "proved",
   "theorems": [
    "Fftwpp.C17_history2",
    "Fftwpp.C17_convolve2",
    "Fftwpp.C17_history3",
    "Fftwpp.C17_convolve3"
   ],
   "note": "noncentered complex transforms, overwriting or not; any threads and schedules, any history. Conditions in the theorems: B<=A (the code's VLA G[A] is too short otherwise), one block per pass in the outer directions (automatic if the stride is >1), A=B+1 if the two-pass schedule is used in an outer direction (the code's rotation of Fp is wrong otherwise)"
  },
  {
   "property": "C18",
   "status": "proved",
   "theorems": [
    "Fftwpp.Fft.C18_gaps"
   ],
   "note": ""
  },
  {
   "property": "C19",
   "status": "proved",
   "theorems": [
    "Fftwpp.Opt.C19_scan",
    "Fftwpp.Opt.C19_fastest",
    "Fftwpp.Opt.C19_forced",
    "Fftwpp.Opt.C19_constructor",
    "Fftwpp.Opt.C19_constructor_centered",
    "Fftwpp.Opt.C19_constructor_hermitian"
   ],
   "note": "1 <= L <= M <= 2^27 (the size functions may overflow beyond 2^32); the timing routine is an environment that returns"
  },
  {
   "property": "C20",
   "status": "proved",
   "theorems": [
    "Fftwpp.Stats.C20_statistics"
   ],
   "note": "exact real arithmetic"
  },
  {
   "property": "C21",
   "status": "proved",
   "theorems": [
    "Fftwpp.C21_symmetrizeX",
    "Fftwpp.C21_symmetrizeXY",
    "Fftwpp.C21_symmetrize",
    "Fftwpp.C21_default_strides"
   ],
   "note": ""
  },
  {
   "property": "C22",
   "status": "proved",
   "theorems": [
    "Fftwpp.C22_blocks_partition",
    "Fftwpp.C22_execute",
    "Fftwpp.C22_inplace_transposed_refuted"
   ],
   "note": "with the hypothesis that no transform reads what another writes; refuted for in-place batches with different input and output layouts, which fftwblock::init does split"
  },
  {
   "property": "C23",
   "status": "proved",
   "theorems": [
    "Fftwpp.Mpi.C23_localdimension"
   ],
   "note": ""
  },
  {
   "property": "C24",
   "status": "proved",
   "theorems": [
    "Fftwpp.Net.C24_gatherx",
    "Fftwpp.Net.C24_gathery",
    "Fftwpp.Net.C24_gatheryz",
    "Fftwpp.Net.C24_gatherxy"
   ],
   "note": "message-passing semantics with every interleaving and every buffering choice of the MPI library (Model/Net.lean); every run is finite, ends with all processes finished and no message left over, and rank 0 holds the array; blocks as computed by split/split3 on any communicator"
  },
  {
   "property": "C25",
   "status": "proved",
   "theorems": [
    "Fftwpp.Mpi.C25_schedule"
   ],
   "note": ""
  },
  {
   "property": "C26",
   "status": "proved",
   "theorems": [
    "Fftwpp.Net.C26_localize0",
    "Fftwpp.Net.C26_localize1",
    "Fftwpp.Net.C26_roundtrip",
    "Fftwpp.Net.C26_compact_refuted"
   ],
   "note": "every N,M,L>=0 with N,M>0, every process count, every a>=1 and alltoall option, all interleavings and buffering choices; the compact algorithm only in place (refuted otherwise); user code between ilocalize and wait is not modelled"
  },
  {
   "property": "C27",
   "status": "proved",
   "theorems": [
    "Fftwpp.Arr.C27_array1",
    "Fftwpp.Arr.C27_array2",
    "Fftwpp.Arr.C27_array3",
    "Fftwpp.Arr.C27_array4",
    "Fftwpp.Arr.C27_array5",
    "Fftwpp.Arr.C27_Array1",
    "Fftwpp.Arr.C27_Array2",
    "Fftwpp.Arr.C27_Array3",
    "Fftwpp.Arr.C27_Array4",
    "Fftwpp.Arr.C27_Array5",
    "Fftwpp.Arr.C27_unsized_refuted",
    "Fftwpp.Arr.C27_identity",
    "Fftwpp.Arr.C27_identity_refuted",
    "Fftwpp.Arr.C27_addDiag2",
    "Fftwpp.Arr.C27_addDiag3",
    "Fftwpp.Arr.C27_addDiag4",
    "Fftwpp.Arr.C27_addDiag5",
    "Fftwpp.Arr.C27_assign3",
    "Fftwpp.Arr.C27_assign4_refuted"
   ],
   "note": "all ten classes; array1(T*) without a size rejects every index in the checking mode (refuted)"
  },
  {
   "property": "C28",
   "status": "proved",
   "theorems": [
    "Fftwpp.C28_shift2",
    "Fftwpp.C28_shift2real",
    "Fftwpp.C28_shift3",
    "Fftwpp.C28_shift3real",
    "Fftwpp.C28_involution",
    "Fftwpp.C28_rotates"
   ],
   "note": ""
  },
  {
   "property": "C29",
   "status": "proved",
   "theorems": [
    "Fftwpp.C29_inverse",
    "Fftwpp.C29_normalize_overrun_refuted"
   ],
   "note": "fft1d and mfft1d; Normalize overruns the output when the input layout is longer (refuted)"
  },
  {
   "property": "C30",
   "status": "proved",
   "theorems": [
    "Fftwpp.C30_conj",
    "Fftwpp.C30_zmulti",
    "Fftwpp.C30_zmult",
    "Fftwpp.C30_zcmult",
    "Fftwpp.C30_zmulti2",
    "Fftwpp.C30_zcmulti",
    "Fftwpp.C30_zmult2",
    "Fftwpp.C30_zmult_xy",
    "Fftwpp.C30_zmult_xy_conj",
    "Fftwpp.C30_zmult2_xy",
    "Fftwpp.C30_zmulti_xy",
    "Fftwpp.C30_pair_add",
    "Fftwpp.C30_pair_sub",
    "Fftwpp.C30_pair2_add",
    "Fftwpp.C30_pair2_sub"
   ],
   "note": "over exact reals"
  },
  {
   "property": "C31",
   "status": "proved",
   "theorems": [
    "Fftwpp.C31_complexAlign",
    "Fftwpp.C31_complexAlign_null",
    "Fftwpp.C31_align"
   ],
   "note": ""
  },
  {
   "property": "C32",
   "status": "proved",
   "theorems": [
    "Fftwpp.C32_correlation"
   ],
   "note": ""
  },
  {
   "property": "C33",
   "status": "proved",
   "theorems": [
    "Fftwpp.C33_inplace",
    "Fftwpp.C33_user_W_refuted"
   ],
   "note": "the constructor discards a user-supplied W: harmless for in-place transforms, and an out-of-place explicit convolution exits"
  },
  {
   "property": "C34",
   "status": "proved",
   "theorems": [
    "Fftwpp.C34_irrefl",
    "Fftwpp.C34_trans",
    "Fftwpp.C34_total",
    "Fftwpp.C34_lookup"
   ],
   "note": ""
  },
  {
   "property": "C35",
   "status": "proved",
   "theorems": [
    "Fftwpp.Fft.C35_forward",
    "Fftwpp.Fft.C35_backward",
    "Fftwpp.Fft.C35_roundtrip",
    "Fftwpp.C35_agree",
    "Fftwpp.Fft.C35_index_refuted",
    "Fftwpp.C17_history2",
    "Fftwpp.C17_history3"
   ],
   "note": "Noncentered overwriting transforms (forward1All/2All, ManyAll, backward counterparts) for all C,S; Convolution::convolveRaw overwriting branch (C35_agree: same first B results as without overwriting, any history), and in 2D/3D (C17_history2/3 cover overwriting in every direction). The multiplier index is wrong for p=2 (C35_index_refuted), so frequency-dependent multipliers need n=2. Centered overwriting belongs to C36."
  },
  {
   "property": "C36",
   "status": "proved",
   "theorems": [
    "Fftwpp.Cent.C36_forward",
    "Fftwpp.Cent.C36_backward_block",
    "Fftwpp.Cent.C36_roundtrip",
    "Fftwpp.Cent.C36_ow_forward",
    "Fftwpp.Cent.C36_ow_roundtrip"
   ],
   "note": "all routines of the centered class (explicit, p=2, p>2, one copy and many, overwriting or not)"
  },
  {
   "property": "C37",
   "status": "proved",
   "theorems": [
    "Fftwpp.Herm.C37_forward",
    "Fftwpp.Herm.C37_backward_block",
    "Fftwpp.Herm.C37_roundtrip",
    "Fftwpp.Herm.C37_real"
   ],
   "note": "all routines of the Hermitian class (explicit, p=2, p>2, one copy and many, in place or not); D>0 is assumed when q=1 (the constructor does not check it)"
  },
  {
   "property": "C38",
   "status": "proved",
   "theorems": [
    "Fftwpp.Re.C38_frequencies",
    "Fftwpp.Re.C38_count",
    "Fftwpp.Re.C38_forward",
    "Fftwpp.Re.C38_backward_block",
    "Fftwpp.Re.C38_roundtrip"
   ],
   "note": "all routines: explicit padding, p=1, p=2, inner (p>2); one copy and many, in place or not, with or without the private work array"
  },
  {
   "property": "C39",
   "status": "proved",
   "theorems": [
    "Fftwpp.Mpi.C39_group1",
    "Fftwpp.Mpi.C39_group2"
   ],
   "note": ""
  },
  {
   "property": "C40",
   "status": "proved",
   "theorems": [
    "Fftwpp.C40_multithread"
   ],
   "note": ""
  },
  {
   "property": "C41",
   "status": "proved",
   "theorems": [
    "Fftwpp.ArrOwn.C41_no_double_free",
    "Fftwpp.ArrOwn.C41_plain",
    "Fftwpp.ArrOwn.C41_aligned",
    "Fftwpp.ArrOwn.C41_no_leak",
    "Fftwpp.ArrOwn.C41_set_mismatch_refuted",
    "Fftwpp.ArrOwn.C41_realloc_mismatch_refuted",
    "Fftwpp.ArrOwn.C41_count_refuted",
    "Fftwpp.ArrOwn.C41_swap_leak_refuted",
    "Fftwpp.ArrOwn.C41_hold_leak_refuted"
   ],
   "note": "with refutations where the bookkeeping is wrong"
  },
  {
   "property": "C42",
   "status": "proved",
   "theorems": [
    "Fftwpp.C42_history",
    "Fftwpp.C42_convolve",
    "Fftwpp.C42_history2",
    "Fftwpp.C42_convolve2",
    "Fftwpp.C42_history3",
    "Fftwpp.C42_convolve3"
   ],
   "note": "Convolution, Convolution2, Convolution3 with a transform of either complex class in each direction"
  },
  {
   "property": "C43",
   "status": "proved",
   "theorems": [
    "Fftwpp.C43_history",
    "Fftwpp.C43_convolve"
   ],
   "note": "one copy (the driver's contract); conditions in the theorem: (A-B) divides B if the two-pass schedule is used, and B<=A unless q=1 (as for C12); element 0 of each input real"
  },
  {
   "property": "C44",
   "status": "proved",
   "theorems": [
    "Fftwpp.C44_history2",
    "Fftwpp.C44_convolve2",
    "Fftwpp.C44_symmetrized"
   ],
   "note": "conditions as for C17 and C43: B<=A, one residue per pass in x, A=B+1 if the two-pass schedule is used in x, (A-B) divides B if it is used in y"
  },
  {
   "property": "C45",
   "status": "proved",
   "theorems": [
    "Fftwpp.C45_history3",
    "Fftwpp.C45_convolve3",
    "Fftwpp.C45_symmetrized"
   ],
   "note": "conditions as for C17 and C43"
  },
  {
   "property": "C46",
   "status": "proved",
   "theorems": [
    "Fftwpp.C46_history",
    "Fftwpp.C46_convolve",
    "Fftwpp.C46_correlation"
   ],
   "note": "one copy (C=1, S<=1: the driver's contract); the multiplier commutes with conjugation and does not depend on the frequency; (A-B) divides B if the two-pass schedule is used, B<=A unless q=1 (as for C12)"
  },
  {
   "property": "C47",
   "status": "proved",
   "theorems": [
    "Fftwpp.C47_history2",
    "Fftwpp.C47_convolve2"
   ],
   "note": "one block per pass in x (always the case if Sx>1); the multiplier commutes with conjugation and does not depend on the frequency; B<=A; A=B+1 if the two-pass schedule is used in x, (A-B) divides B if it is used in y; x transform without private copy of the data (fftPadReal allocates one only if in place, p>2 and Sx>Ly)"
  },
  {
   "property": "C48",
   "status": "proved",
   "theorems": [
    "Fftwpp.C48_history3",
    "Fftwpp.C48_convolve3"
   ],
   "note": "conditions as for C47 in x (fftx->C=Ly*Sy as checked by checkStrides), as for C17 in y and z"
  },
  {
   "property": "C49",
   "status": "proved",
   "theorems": [
    "Fftwpp.Net.C49_forward",
    "Fftwpp.Net.C49_backward",
    "Fftwpp.Net.C49_roundtrip",
    "Fftwpp.Net.C49_default_out_refuted",
    "Fftwpp.Net.C49_backward_input_refuted"
   ],
   "note": "Forward and Backward with an explicit output argument; the two _refuted theorems are findings (DESIGN section 4)"
  },
  {
   "property": "C50",
   "status": "proved",
   "theorems": [
    "Fftwpp.Net.C50_forward",
    "Fftwpp.Net.C50_forward0",
    "Fftwpp.Net.C50_backward",
    "Fftwpp.Net.C50_backward0",
    "Fftwpp.Net.C50_roundtrip",
    "Fftwpp.Net.C50_roundtrip0",
    "Fftwpp.Net.C50_deNyquist",
    "Fftwpp.Net.C50_deNyquist_refuted",
    "Fftwpp.Net.C50_default_out_refuted"
   ],
   "note": "explicit output argument for Forward/Forward0/Backward0; the two _refuted theorems are findings (DESIGN section 4)"
  },
  {
   "property": "C51",
   "status": "proved",
   "theorems": [
    "Fftwpp.Net.C51_forward",
    "Fftwpp.Net.C51_backward",
    "Fftwpp.Net.C51_roundtrip",
    "Fftwpp.Net.C51_default_out_refuted"
   ],
   "note": "explicit output argument; the _refuted theorem is a finding (DESIGN section 4)"
  },
  {
   "property": "C52",
   "status": "proved",
   "theorems": [
    "Fftwpp.Net.C52_forward",
    "Fftwpp.Net.C52_forward0",
    "Fftwpp.Net.C52_backward",
    "Fftwpp.Net.C52_backward0",
    "Fftwpp.Net.C52_roundtrip",
    "Fftwpp.Net.C52_roundtrip0",
    "Fftwpp.Net.C52_deNyquist",
    "Fftwpp.Net.C52_deNyquist_refuted",
    "Fftwpp.Net.C52_default_out_refuted",
    "Fftwpp.Net.C52_backward0_default_out_refuted"
   ],
   "note": "explicit output argument (or the default for Backward in place); deNyquist unless a process without planes starts at the end; the _refuted theorems are findings (DESIGN section 4)"
  },
  {
   "property": "C53",
   "status": "proved",
   "theorems": [
    "Fftwpp.C53_history",
    "Fftwpp.C53_convolve",
    "Fftwpp.C53_data_exist",
    "Fftwpp.C53_kappa_exists",
    "Fftwpp.C53_frequency_refuted",
    "Fftwpp.C53_fault_detected"
   ],
   "note": "as constructed by the test programs: D=1, no overwriting, contiguous columns in x (DESIGN section 4, findings 31-36); a multiplier that depends on the x frequency is told a wrong one if P>1: the theorem gives the value in terms of what it is told (kappa), C53_frequency_refuted shows that it differs from the inverse transform"
  },
  {
   "property": "C54",
   "status": "proved",
   "theorems": [
    "Fftwpp.C54_history",
    "Fftwpp.C54_convolve",
    "Fftwpp.C54_symmetrized"
   ],
   "note": "as C53"
  },
  {
   "property": "C55",
   "status": "proved",
   "theorems": [
    "Fftwpp.C55_history",
    "Fftwpp.C55_convolve",
    "Fftwpp.C55_data_exist"
   ],
   "note": "slab decomposition (d.z=d.Z); as C53: D=1, no overwriting, contiguous in x and y; the multiplier is told the x frequency kappa as in C53; pencils are not modelled"
  },
  {
   "property": "C56",
   "status": "proved",
   "theorems": [
    "Fftwpp.C56_history",
    "Fftwpp.C56_convolve"
   ],
   "note": "slab decomposition (d.z=d.Z); as C55 with Hermitian z transform"
  },
  {
   "property": "C57",
   "status": "proved",
   "theorems": [
    "Fftwpp.C57_symmetrized",
    "Fftwpp.C57_table"
   ],
   "note": "slab decomposition (d.z0=0); the arrays gathered by MPI_Allgather are given"
  },
  {
   "property": "C58",
   "status": "proved",
   "theorems": [
    "Fftwpp.C58_convolve",
    "Fftwpp.C58_convolveC",
    "Fftwpp.C58_autoconvolve",
    "Fftwpp.C58_convolveh",
    "Fftwpp.C58_convolve2",
    "Fftwpp.C58_convolve3",
    "Fftwpp.C58_convolveh2",
    "Fftwpp.C58_convolveh2_symmetrized",
    "Fftwpp.C58_convolveh3",
    "Fftwpp.C58_convolveh3_symmetrized",
    "Fftwpp.C58_hybrid",
    "Fftwpp.C58_hybridC",
    "Fftwpp.C58_hybridh",
    "Fftwpp.C58_hybrid2",
    "Fftwpp.C58_hybrid3",
    "Fftwpp.C58_hybridh2",
    "Fftwpp.C58_hybridh3"
   ],
   "note": "exact complex numbers; with symmetrize=true the default strides (finding 38)"
  },
  {
   "property": "C59",
   "status": "proved",
   "theorems": [
    "Fftwpp.C59_conv1d",
    "Fftwpp.C59_hconv1d",
    "Fftwpp.C59_conv2d",
    "Fftwpp.C59_hconv2d",
    "Fftwpp.C59_conv3d",
    "Fftwpp.C59_hconv3d",
    "Fftwpp.C59_py1",
    "Fftwpp.C59_py2",
    "Fftwpp.C59_py3"
   ],
   "note": "exact complex numbers; conv2d/hconv2d/conv3d/hconv3d/py2/py3: last axis of at least two stored words (finding 39)"
  },
  {
   "property": "C60",
   "status": "proved",
   "theorems": [
    "Fftwpp.RFft.C60_forward",
    "Fftwpp.RFft.C60_backward",
    "Fftwpp.RFft.C60_forwardNormalized",
    "Fftwpp.RFft.C60_roundtrip",
    "Fftwpp.RFft.C60_deNyquist",
    "Fftwpp.RFft.C60_exit",
    "Fftwpp.RFft.C60_rcfft2d",
    "Fftwpp.RFft.C60_complexOverload_refuted"
   ],
   "note": "exact numbers; FFTW's documented contract for plans of real data is the definition of the plan; the overload for Complex output is refuted (finding 40)"
  },
  {
   "property": "C61",
   "status": "proved",
   "theorems": [
    "Fftwpp.RBatch.C61_forward",
    "Fftwpp.RBatch.C61_forwardNormalized",
    "Fftwpp.RBatch.C61_backward",
    "Fftwpp.RBatch.C61_roundtrip",
    "Fftwpp.RBatch.C61_exit",
    "Fftwpp.RBatch.C61_scratch",
    "Fftwpp.RBatch.C61_scratch_default_refuted",
    "Fftwpp.RBatch.C61_inplace_split_refuted"
   ],
   "note": "exact numbers; FFTW's contract for batched plans of real data is the definition of the plan; the split of in-place batches with unequal distances and the planning array for default distances are refuted (findings 41, 42)"
  },
  {
   "property": "C62",
   "status": "proved",
   "theorems": [
    "Fftwpp.CFft.C62_fft1d",
    "Fftwpp.CFft.C62_fft2d",
    "Fftwpp.CFft.C62_fft3d",
    "Fftwpp.CFft.C62_inverse",
    "Fftwpp.CFft.C62_exit"
   ],
   "note": "exact numbers; FFTW's contract for complex plans is the definition of the plan"
  },
  {
   "property": "C63",
   "status": "proved",
   "theorems": [
    "Fftwpp.Cplx.C63_assign",
    "Fftwpp.Cplx.C63_operators",
    "Fftwpp.Cplx.C63_eq",
    "Fftwpp.Cplx.C63_div",
    "Fftwpp.Cplx.C63_abs",
    "Fftwpp.Cplx.C63_exp",
    "Fftwpp.Cplx.C63_arg",
    "Fftwpp.Cplx.C63_arg_refuted",
    "Fftwpp.Cplx.C63_pow",
    "Fftwpp.Cplx.C63_pow_refuted",
    "Fftwpp.Cplx.C63_sqrt"
   ],
   "note": "exact numbers; arg and pow of negative real numbers are refuted (finding 43)"
  },
  {
   "property": "C64",
   "status": "proved",
   "theorems": [
    "Fftwpp.Sse.C64_basic",
    "Fftwpp.Sse.C64_products",
    "Fftwpp.Sse.C64_reg"
   ],
   "note": "the intrinsics are their documentation; both builds use the same operations on doubles (no contraction to fused operations), and negation flips the sign bit"
  },
  {
   "property": "C65",
   "status": "proved",
   "theorems": [
    "Fftwpp.Align.C65_memalign",
    "Fftwpp.Align.C65_errors",
    "Fftwpp.Align.C65_zero_refuted",
    "Fftwpp.Align.C65_overflow_refuted"
   ],
   "note": "size_t arithmetic mod 2^64; the block malloc returns lies below 2^64; alignment 0 and the overflow of size+alignment are refuted (finding 44)"
  },
  {
   "property": "C66",
   "status": "proved",
   "theorems": [
    "Fftwpp.C66_complex2",
    "Fftwpp.C66_complex3",
    "Fftwpp.C66_real2",
    "Fftwpp.C66_real3"
   ],
   "note": "the hypotheses are those of C17, C47, C48 (shapes, buffers), without condition on the multiplier; exact complex arithmetic; only the nonnegative lags are in the array when the padding suffices"
  },
  {
   "property": "C67",
   "status": "proved",
   "theorems": [
    "Fftwpp.Align.C67_lifecycle",
    "Fftwpp.Align.C67_failure_refuted",
    "Fftwpp.Align.C67_overflow_refuted"
   ],
   "note": "build without posix_memalign; constructors that throw are not modelled; failure and overflow are refuted (finding 45)"
  }
 ]
}